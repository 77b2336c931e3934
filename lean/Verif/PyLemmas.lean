import Verif.Py
import Mathlib.Data.List.Basic
/-
Lemmas about the Python building blocks: dictionaries, split, join, strip.
-/
namespace Verif

namespace Dict
variable {α β : Type} [DecidableEq α]

@[simp] theorem get?_nil (x : α) : get? ([] : Dict α β) x = none := rfl

theorem get?_cons (k : α) (v : β) (d : Dict α β) (x : α) :
    get? ((k, v) :: d) x = if k = x then some v else get? d x := rfl

theorem get?_mem {d : Dict α β} {k : α} {v : β} (h : get? d k = some v) : (k, v) ∈ d := by
  induction d with
  | nil => cases h
  | cons kv d ih =>
    obtain ⟨k', v'⟩ := kv
    rw [get?_cons] at h
    split at h
    · rename_i e; subst e; cases h; simp
    · exact List.mem_cons_of_mem _ (ih h)

theorem get?_none {d : Dict α β} {k : α} : get? d k = none ↔ k ∉ keys d := by
  induction d with
  | nil => simp [keys]
  | cons kv d ih =>
    obtain ⟨k', v'⟩ := kv
    rw [get?_cons]
    simp only [keys, List.map_cons, List.mem_cons, not_or] at *
    split
    · rename_i e; subst e; simp
    · rename_i e; rw [ih]; exact ⟨fun h => ⟨fun hc => e hc.symm, h⟩, fun h => h.2⟩

omit [DecidableEq α] in
theorem mem_keys_of_mem {d : Dict α β} {k : α} {v : β} (h : (k, v) ∈ d) : k ∈ keys d :=
  List.mem_map.2 ⟨(k, v), h, rfl⟩

theorem mem_iff_get? {d : Dict α β} (hwf : WF d) {k : α} {v : β} : (k, v) ∈ d ↔ get? d k = some v := by
  refine ⟨?_, get?_mem⟩
  induction d with
  | nil => simp
  | cons kv d ih =>
    obtain ⟨k', v'⟩ := kv
    have hwf' := List.nodup_cons.1 hwf
    intro h
    rw [get?_cons]
    rcases List.mem_cons.1 h with h | h
    · cases h; simp
    · split
      · rename_i e; subst e
        exact absurd (mem_keys_of_mem h) hwf'.1
      · exact ih hwf'.2 h

theorem get?_set (d : Dict α β) (k : α) (v : β) (x : α) :
    get? (set d k v) x = if k = x then some v else get? d x := by
  induction d with
  | nil => simp [set, get?]
  | cons kv d ih =>
    obtain ⟨k', v'⟩ := kv
    unfold set
    split
    · rename_i e; subst e
      rw [get?_cons]; split
      · rfl
      · rename_i e; rw [get?_cons, if_neg e]
    · rename_i e
      rw [get?_cons, ih, get?_cons]
      split
      · rename_i e2; subst e2
        rw [if_neg (fun h => e h.symm)]
      · rfl

theorem keys_set (d : Dict α β) (k : α) (v : β) :
    keys (set d k v) = if k ∈ keys d then keys d else keys d ++ [k] := by
  induction d with
  | nil => simp [set, keys]
  | cons kv d ih =>
    obtain ⟨k', v'⟩ := kv
    unfold set
    split
    · rename_i e; subst e; simp [keys]
    · rename_i e
      simp only [keys, List.map_cons, List.mem_cons] at *
      rw [ih]
      have : (k = k') = False := by simp; exact fun h => e h.symm
      simp only [this, false_or]
      split <;> simp_all

theorem WF.set {d : Dict α β} (h : WF d) (k : α) (v : β) : WF (set d k v) := by
  unfold WF at *
  rw [keys_set]
  split
  · exact h
  · rename_i hk
    rw [List.nodup_append]
    exact ⟨h, by simp, by intro a ha b hb; simp at hb; subst hb; exact fun e => hk (e ▸ ha)⟩

omit [DecidableEq α] in
theorem wf_nil : WF ([] : Dict α β) := List.nodup_nil

theorem set_new {d : Dict α β} {k : α} (h : k ∉ keys d) (v : β) : set d k v = d ++ [(k, v)] := by
  induction d with
  | nil => rfl
  | cons kv d ih =>
    obtain ⟨k', v'⟩ := kv
    simp only [keys, List.map_cons, List.mem_cons, not_or] at h
    unfold set
    rw [if_neg (fun e => h.1 e.symm), ih h.2]; rfl

theorem get?_del {d : Dict α β} (hwf : WF d) (k x : α) :
    get? (del d k) x = if k = x then none else get? d x := by
  induction d with
  | nil => simp [del]
  | cons kv d ih =>
    obtain ⟨k', v'⟩ := kv
    have hwf' := List.nodup_cons.1 hwf
    unfold del
    split
    · rename_i e; subst e
      split
      · rename_i e; subst e; exact get?_none.2 hwf'.1
      · rename_i e; rw [get?_cons, if_neg e]
    · rename_i e
      rw [get?_cons, ih hwf'.2, get?_cons]
      split
      · rename_i e2; subst e2; rw [if_neg (fun h => e h.symm)]
      · rfl

theorem keys_del_sub (d : Dict α β) (k : α) : (keys (del d k)).Sublist (keys d) := by
  induction d with
  | nil => exact List.Sublist.slnil
  | cons kv d ih =>
    obtain ⟨k', v'⟩ := kv
    unfold del
    split
    · exact List.Sublist.cons _ (List.Sublist.refl _)
    · exact List.Sublist.cons_cons _ ih

theorem WF.del {d : Dict α β} (h : WF d) (k : α) : WF (del d k) :=
  List.Nodup.sublist (keys_del_sub d k) h

end Dict

/-! ### split and join -/

theorem splitOn_ne_nil (c : Nat) (s : Str) : splitOn c s ≠ [] := by
  cases s with
  | nil => simp [splitOn]
  | cons x xs =>
    unfold splitOn
    split
    · simp
    · split <;> simp

theorem splitOn_noSep {c : Nat} {s : Str} (h : c ∉ s) : splitOn c s = [s] := by
  induction s with
  | nil => rfl
  | cons x xs ih =>
    simp only [List.mem_cons, not_or] at h
    unfold splitOn
    rw [if_neg (fun e => h.1 e.symm), ih h.2]

theorem splitOn_append {c : Nat} {p : Str} (hp : c ∉ p) (s : Str) :
    splitOn c (p ++ c :: s) = p :: splitOn c s := by
  induction p with
  | nil => simp [splitOn]
  | cons x xs ih =>
    simp only [List.mem_cons, not_or] at hp
    rw [List.cons_append, splitOn, if_neg (fun e => hp.1 e.symm), ih hp.2]

/-- Splitting what was joined gives the parts back. -/
theorem splitOn_joinWith {c : Nat} : ∀ {ps : List Str}, ps ≠ [] → (∀ p ∈ ps, c ∉ p) →
    splitOn c (joinWith [c] ps) = ps
  | [], h, _ => absurd rfl h
  | [p], _, h => by simpa [joinWith] using splitOn_noSep (h p (by simp))
  | p :: q :: ps, _, h => by
    have ih := splitOn_joinWith (c := c) (ps := q :: ps) (by simp) (fun x hx => h x (by simp [hx]))
    rw [joinWith, List.append_assoc, List.singleton_append, splitOn_append (h p (by simp)), ih]
    simp

theorem splitOn_noSep_mem {c : Nat} {s p : Str} (h : p ∈ splitOn c s) : c ∉ p := by
  induction s generalizing p with
  | nil => simp [splitOn] at h; simp [h]
  | cons x xs ih =>
    unfold splitOn at h
    split at h
    · rcases List.mem_cons.1 h with rfl | h
      · simp
      · exact ih h
    · rename_i hx
      split at h
      · rename_i he; exact absurd he (splitOn_ne_nil c xs)
      · rename_i q qs he
        rcases List.mem_cons.1 h with rfl | h
        · have := ih (p := q) (by rw [he]; simp)
          simp only [List.mem_cons, not_or]
          exact ⟨fun e => hx e.symm, this⟩
        · exact ih (by rw [he]; exact List.mem_cons_of_mem _ h)

theorem joinWith_splitOn (c : Nat) (s : Str) : joinWith [c] (splitOn c s) = s := by
  induction s with
  | nil => rfl
  | cons x xs ih =>
    unfold splitOn
    split
    · rename_i e; subst e
      cases h : splitOn x xs with
      | nil => exact absurd h (splitOn_ne_nil x xs)
      | cons p ps => rw [h] at ih; rw [joinWith, ih]; simp; simp
    · split
      · rename_i he; exact absurd he (splitOn_ne_nil c xs)
      · rename_i q qs he
        rw [he] at ih
        cases qs with
        | nil => simp only [joinWith] at ih ⊢; rw [ih]
        | cons r rs => simp only [joinWith] at ih ⊢; rw [← ih]; simp

theorem splitOnce_eq {c : Nat} {p : Str} (hp : c ∉ p) (s : Str) :
    splitOnce c (p ++ c :: s) = some (p, s) := by
  induction p with
  | nil => simp [splitOnce]
  | cons x xs ih =>
    simp only [List.mem_cons, not_or] at hp
    rw [List.cons_append, splitOnce, if_neg (fun e => hp.1 e.symm), ih hp.2]

theorem splitOnce_none {c : Nat} {s : Str} : splitOnce c s = none ↔ c ∉ s := by
  induction s with
  | nil => simp [splitOnce]
  | cons x xs ih =>
    unfold splitOnce
    split
    · rename_i e; simp [e]
    · rename_i e
      cases h : splitOnce c xs with
      | none => simp only [true_iff, List.mem_cons, not_or]; exact ⟨fun h => e h.symm, ih.1 h⟩
      | some q =>
        simp only [List.mem_cons, not_or]
        constructor
        · intro h; cases h
        · intro h2; rw [ih.2 h2.2] at h; cases h

theorem splitOnce_some {c : Nat} {s a b : Str} (h : splitOnce c s = some (a, b)) :
    s = a ++ c :: b ∧ c ∉ a := by
  induction s generalizing a with
  | nil => cases h
  | cons x xs ih =>
    unfold splitOnce at h
    split at h
    · rename_i e; cases h; simp [e]
    · rename_i e
      cases h2 : splitOnce c xs with
      | none => rw [h2] at h; cases h
      | some q =>
        obtain ⟨a', b'⟩ := q
        rw [h2] at h; cases h
        obtain ⟨h3, h4⟩ := ih h2
        refine ⟨by rw [h3]; simp, ?_⟩
        simp only [List.mem_cons, not_or]; exact ⟨fun h => e h.symm, h4⟩

/-! ### strip -/

theorem dropWhile_split (p : Nat → Bool) (s : Str) :
    ∃ a, s = a ++ s.dropWhile p ∧ ∀ x ∈ a, p x = true := by
  refine ⟨s.takeWhile p, (List.takeWhile_append_dropWhile).symm, fun x hx => ?_⟩
  have := List.all_takeWhile (p := p) (l := s)
  exact (List.all_eq_true.1 this) x hx

theorem dropWhile_all {p : Nat → Bool} {s : Str} (h : ∀ x ∈ s, p x = true) : s.dropWhile p = [] := by
  induction s with
  | nil => rfl
  | cons x xs ih =>
    rw [List.dropWhile_cons, if_pos (h x (by simp))]
    exact ih (fun y hy => h y (by simp [hy]))

theorem dropWhile_head (p : Nat → Bool) (s : Str) : ∀ x, (s.dropWhile p).head? = some x → p x = false := by
  intro x h
  induction s with
  | nil => simp at h
  | cons y ys ih =>
    rw [List.dropWhile_cons] at h
    split at h
    · exact ih h
    · simp at h; subst h; simpa using ‹¬ p y = true›

/-- `strip` removes a prefix and a suffix of strippable characters, and leaves a string that
neither starts nor ends with one. -/
theorem stripBy_spec (p : Nat → Bool) (s : Str) :
    ∃ a b, s = a ++ stripBy p s ++ b ∧ (∀ x ∈ a, p x = true) ∧ (∀ x ∈ b, p x = true) ∧
      (∀ x, (stripBy p s).head? = some x → p x = false) ∧
      (∀ x, (stripBy p s).getLast? = some x → p x = false) := by
  obtain ⟨a, h1, h2⟩ := dropWhile_split p s
  obtain ⟨b, h3, h4⟩ := dropWhile_split p (s.dropWhile p).reverse
  have h5 := dropWhile_head p s
  have h6 := dropWhile_head p (s.dropWhile p).reverse
  unfold stripBy
  generalize hd : s.dropWhile p = d at *
  generalize he : d.reverse.dropWhile p = e at *
  have hde : d = e.reverse ++ b.reverse := by
    have := congrArg List.reverse h3
    simpa using this
  refine ⟨a, b.reverse, ?_, h2, by simpa using h4, ?_, ?_⟩
  · rw [List.append_assoc, ← hde]; exact h1
  · intro x hx
    apply h5 x
    rw [hde]
    cases hr : e.reverse with
    | nil => rw [hr] at hx; cases hx
    | cons y ys => rw [hr] at hx; simpa using hx
  · intro x hx
    rw [List.getLast?_reverse] at hx
    exact h6 x hx

/-- The description in `stripBy_spec` determines the result. -/
theorem stripBy_unique {p : Nat → Bool} {a x b : Str} (ha : ∀ c ∈ a, p c = true) (hb : ∀ c ∈ b, p c = true)
    (h1 : ∀ c, x.head? = some c → p c = false) (h2 : ∀ c, x.getLast? = some c → p c = false) :
    stripBy p (a ++ x ++ b) = x := by
  have drop_all : ∀ (l m : Str), (∀ c ∈ l, p c = true) → (l ++ m).dropWhile p = m.dropWhile p := by
    intro l m hl
    induction l with
    | nil => rfl
    | cons y ys ih =>
      rw [List.cons_append, List.dropWhile_cons, if_pos (hl y (by simp))]
      exact ih (fun c hc => hl c (by simp [hc]))
  have drop_none : ∀ m : Str, (∀ c, m.head? = some c → p c = false) → m.dropWhile p = m := by
    intro m hm
    cases m with
    | nil => rfl
    | cons y ys => rw [List.dropWhile_cons, if_neg]; simp [hm y rfl]
  unfold stripBy
  rw [List.append_assoc, drop_all a _ ha]
  cases x with
  | nil =>
    have : b.dropWhile p = [] := by
      have := drop_all b [] hb; simpa using this
    simp [this]
  | cons y ys =>
    rw [List.cons_append, List.dropWhile_cons, if_neg (by simp [h1 y rfl])]
    rw [← List.cons_append, List.reverse_append, drop_all _ _ (by simpa using hb), drop_none]
    · simp
    · intro c hc
      rw [List.head?_reverse] at hc
      exact h2 c hc

theorem stripBy_id {p : Nat → Bool} {x : Str}
    (h1 : ∀ c, x.head? = some c → p c = false) (h2 : ∀ c, x.getLast? = some c → p c = false) :
    stripBy p x = x := by
  have := stripBy_unique (p := p) (a := []) (b := []) (x := x) (by simp) (by simp) h1 h2
  simpa using this

/-- Removing fewer characters first changes nothing. -/
theorem stripBy_stripBy {p q : Nat → Bool} (h : ∀ c, q c = true → p c = true) (s : Str) :
    stripBy q (stripBy p s) = stripBy p s := by
  obtain ⟨_, _, _, _, _, h1, h2⟩ := stripBy_spec p s
  refine stripBy_id (fun c hc => ?_) (fun c hc => ?_)
  · have := h1 c hc
    cases hq : q c
    · rfl
    · rw [h c hq] at this; cases this
  · have := h2 c hc
    cases hq : q c
    · rfl
    · rw [h c hq] at this; cases this

theorem stripBy_sub {p : Nat → Bool} {s : Str} {c : Nat} (h : c ∈ stripBy p s) : c ∈ s := by
  obtain ⟨a, b, h1, _⟩ := stripBy_spec p s
  rw [h1]; simp [h]

end Verif
