import Verif.PyLemmas
import Verif.Lib.Model
import Verif.Lib.Spec
/-
Lemmas relating the model of lib/ to its specification.
-/
namespace Verif.Lib
open Verif Verif.Lib.Spec

/-! ### pieces and trimming -/

theorem splitOn_append_sep (c : Nat) (s w : Str) :
    splitOn c (s ++ c :: w) = splitOn c s ++ splitOn c w := by
  induction s with
  | nil => simp [splitOn]
  | cons x xs ih =>
    rw [List.cons_append, splitOn, splitOn]
    split
    · rw [ih]; rfl
    · rw [ih]
      cases h : splitOn c xs with
      | nil => exact absurd h (splitOn_ne_nil _ _)
      | cons q qs => simp

/-- The pieces are what `split` returns. -/
theorem mem_splitOn {c : Nat} {v p : Str} : p ∈ splitOn c v ↔ IsPiece c v p := by
  constructor
  · intro h
    refine ⟨splitOn_noSep_mem h, ?_⟩
    have hj := joinWith_splitOn c v
    obtain ⟨l, r, hlr⟩ := List.append_of_mem h
    have key : ∀ (l r : List Str), ∃ a b, joinWith [c] (l ++ p :: r) = a ++ p ++ b ∧
        (a = [] ∨ ∃ a', a = a' ++ [c]) ∧ (b = [] ∨ ∃ b', b = c :: b') := by
      intro l r
      induction l with
      | nil =>
        cases r with
        | nil => exact ⟨[], [], by simp [joinWith], Or.inl rfl, Or.inl rfl⟩
        | cons q qs =>
          exact ⟨[], c :: joinWith [c] (q :: qs), by simp [joinWith], Or.inl rfl, Or.inr ⟨_, rfl⟩⟩
      | cons x xs ih =>
        obtain ⟨a, b, h1, h2, h3⟩ := ih
        cases h : xs ++ p :: r with
        | nil => simp at h
        | cons q qs =>
          rw [h] at h1
          refine ⟨x ++ [c] ++ a, b, ?_, Or.inr ?_, h3⟩
          · rw [List.cons_append, h, joinWith, h1]; simp; simp
          · rcases h2 with rfl | ⟨a', rfl⟩
            · exact ⟨x, by simp⟩
            · exact ⟨x ++ [c] ++ a', by simp⟩
    obtain ⟨a, b, h1, h2, h3⟩ := key l r
    rw [← hlr, hj] at h1
    exact ⟨a, b, h1, h2, h3⟩
  · rintro ⟨hp, a, b, rfl, ha, hb⟩
    have h1 : p ∈ splitOn c (p ++ b) := by
      rcases hb with rfl | ⟨b', rfl⟩
      · rw [List.append_nil, splitOn_noSep hp]; simp
      · rw [splitOn_append hp]; simp
    rcases ha with rfl | ⟨a', rfl⟩
    · simpa using h1
    · have : a' ++ [c] ++ p ++ b = a' ++ c :: (p ++ b) := by simp
      rw [this, splitOn_append_sep]
      exact List.mem_append_right _ h1

theorem all_replicate {a : Str} {x : Nat} (h : ∀ c ∈ a, c = x) : a = List.replicate a.length x :=
  List.eq_replicate_iff.2 ⟨rfl, h⟩

/-- Trimming is what `strip(' ')` computes. -/
theorem isTrim_iff {p x : Str} : IsTrim p x ↔ stripSpace p = x := by
  constructor
  · rintro ⟨⟨i, j, rfl⟩, h1, h2⟩
    refine stripBy_unique (by intro c hc; simp [List.eq_of_mem_replicate hc])
      (by intro c hc; simp [List.eq_of_mem_replicate hc]) (fun c hc => ?_) (fun c hc => ?_)
    · rw [hc] at h1; simpa using h1
    · rw [hc] at h2; simpa using h2
  · rintro rfl
    obtain ⟨a, b, h1, h2, h3, h4, h5⟩ := stripBy_spec (· == 32) p
    refine ⟨⟨a.length, b.length, ?_⟩, fun h => ?_, fun h => ?_⟩
    · rw [← all_replicate (a := a) (x := 32) (by simpa using h2),
        ← all_replicate (a := b) (x := 32) (by simpa using h3)]
      exact h1
    · exact absurd (h4 32 h) (by simp)
    · exact absurd (h5 32 h) (by simp)

/-- What the tester sees of a dictionary is its normalised set. -/
theorem mem_normalize (d : Dict Str Str) (name x : Str) :
    (name, x) ∈ normalizeDict [b!":version", b!":status-text", b!"connection"] d ↔ Shows d name x := by
  unfold normalizeDict Shows
  rw [List.mem_flatMap]
  simp only [List.mem_cons, List.not_mem_nil, or_false]
  constructor
  · rintro ⟨⟨k, v⟩, hmem, h⟩
    dsimp only at h
    split at h
    · simp at h
    · rename_i hni
      simp only [not_or] at hni
      split at h
      · rename_i hk
        obtain ⟨p, hp, h⟩ := List.mem_map.1 h
        cases h
        exact ⟨hni.1, hni.2.1, hni.2.2, v, p, hmem, by rw [sepOf, if_pos hk]; exact mem_splitOn.1 hp,
          isTrim_iff.2 rfl⟩
      · rename_i hk
        obtain ⟨p, hp, h⟩ := List.mem_map.1 h
        cases h
        exact ⟨hni.1, hni.2.1, hni.2.2, v, p, hmem, by rw [sepOf, if_neg hk]; exact mem_splitOn.1 hp,
          isTrim_iff.2 rfl⟩
  · rintro ⟨h1, h2, h3, v, p, hmem, hp, ht⟩
    refine ⟨(name, v), hmem, ?_⟩
    dsimp only
    rw [if_neg (by simp only [not_or]; exact ⟨h1, h2, h3⟩)]
    have ht := isTrim_iff.1 ht
    subst ht
    by_cases hk : name = b!"cookie"
    · rw [sepOf, if_pos hk] at hp
      rw [if_pos hk]
      exact List.mem_map.2 ⟨p, mem_splitOn.2 hp, rfl⟩
    · rw [sepOf, if_neg hk] at hp
      rw [if_neg hk]
      exact List.mem_map.2 ⟨p, mem_splitOn.2 hp, rfl⟩

theorem mem_difference {a b : List Hdr} {x : Hdr} : x ∈ difference a b ↔ x ∈ a ∧ x ∉ b := by
  simp [difference]

theorem difference_eq_nil {a b : List Hdr} : difference a b = [] ↔ ∀ x ∈ a, x ∈ b := by
  rw [List.eq_nil_iff_forall_not_mem]
  constructor
  · intro h x hx
    by_contra hc
    exact h x (mem_difference.2 ⟨hx, hc⟩)
  · intro h x hx
    obtain ⟨h1, h2⟩ := mem_difference.1 hx
    exact h2 (h x h1)

theorem joinWith_eq_nil {sep : Str} (hs : sep ≠ []) {ps : List Str} (hp : ∀ p ∈ ps, p ≠ []) :
    joinWith sep ps = [] ↔ ps = [] := by
  cases ps with
  | nil => simp [joinWith]
  | cons p ps =>
    cases ps with
    | nil => simp [joinWith]; exact hp p (by simp)
    | cons q qs => simp [joinWith, hs]

theorem compare_nil {ord : List Hdr → List Hdr} (hord : ∀ l, (ord l).Perm l) (a : Dict Str Str)
    (an : Str) (b : Dict Str Str) (bn : Str) :
    compareHeaders ord a an b bn = [] ↔
      ∀ x, x ∈ normalizeDict [b!":version", b!":status-text", b!"connection"] a ↔
        x ∈ normalizeDict [b!":version", b!":status-text", b!"connection"] b := by
  unfold compareHeaders
  dsimp only
  have hol : ∀ n l, onlyLines n l = [] ↔ l = [] := by
    intro n l; unfold onlyLines; split <;> simp_all
  have hord' : ∀ l, ord l = [] ↔ l = [] := by
    intro l
    constructor
    · intro h; have := hord l; rw [h] at this; exact this.symm.eq_nil
    · intro h; have := hord l; rw [h] at this ⊢; exact this.eq_nil
  rw [joinWith_eq_nil (by simp)]
  · rw [List.append_eq_nil_iff, hol, hol, hord', hord', difference_eq_nil, difference_eq_nil]
    exact ⟨fun h x => ⟨h.1 x, h.2 x⟩, fun h => ⟨fun x => (h x).1, fun x => (h x).2⟩⟩
  · intro p hp
    have : ∀ n l, p ∈ onlyLines n l → p ≠ [] := by
      intro n l h
      unfold onlyLines at h
      split at h
      · cases h
      · rcases List.mem_cons.1 h with rfl | h
        · simp
        · obtain ⟨x, _, rfl⟩ := List.mem_map.1 h; simp
    rcases List.mem_append.1 hp with h | h
    · exact this _ _ h
    · exact this _ _ h

/-! ### filter_headers -/

theorem foldl_set_filter (P : Str → Prop) [DecidablePred P] : ∀ (d acc : Dict Str Str),
    (acc ++ d).WF →
    d.foldl (fun new kv => if P kv.1 then new else Dict.set new kv.1 kv.2) acc =
      acc ++ d.filter fun kv => ¬ P kv.1
  | [], acc, _ => by simp
  | (k, v) :: d, acc, h => by
    rw [List.foldl_cons, List.filter_cons]
    by_cases hk : P k
    · rw [if_pos hk, foldl_set_filter P d acc]
      · simp [hk]
      · refine List.Nodup.sublist ?_ h
        simp only [Dict.keys, List.map_append, List.map_cons]
        exact List.Sublist.append_left (List.Sublist.cons _ (List.Sublist.refl _)) _
    · rw [if_neg hk]
      have hnot : k ∉ Dict.keys acc := by
        unfold Dict.WF Dict.keys at h
        rw [List.map_append, List.map_cons, List.nodup_append] at h
        intro hc
        exact h.2.2 k hc k (by simp) rfl
      rw [Dict.set_new hnot, foldl_set_filter P d]
      · simp [hk]
      · simpa [Dict.WF, Dict.keys] using h

theorem filterHeaders_eq {d : Dict Str Str} (h : d.WF) :
    filterHeaders d = d.filter fun kv => ¬ kv.1 ∈ ignoredNames d := by
  unfold filterHeaders
  rw [foldl_set_filter (fun k => k ∈ ignoredNames d) d [] (by simpa using h)]
  rfl

theorem mem_ignoredNames {d : Dict Str Str} (h : d.WF) (name : Str) :
    name ∈ ignoredNames d ↔ HopByHop d name := by
  unfold ignoredNames HopByHop
  dsimp only
  cases hc : d.get? b!"connection" with
  | none =>
    simp only
    constructor
    · exact Or.inl
    · rintro (h1 | ⟨v, p, h1, _⟩)
      · exact h1
      · rw [(Dict.mem_iff_get? h).1 h1] at hc; cases hc
  | some v =>
    simp only [List.mem_append, List.mem_map]
    constructor
    · rintro (h1 | ⟨p, h1, h2⟩)
      · exact Or.inl h1
      · exact Or.inr ⟨v, p, Dict.get?_mem hc, mem_splitOn.1 h1, isTrim_iff.2 h2⟩
    · rintro (h1 | ⟨v', p, h1, h2, h3⟩)
      · exact Or.inl h1
      · rw [(Dict.mem_iff_get? h).1 h1] at hc
        cases hc
        exact Or.inr ⟨p, mem_splitOn.2 h2, isTrim_iff.1 h3⟩

/-! ### merge_dols -/

theorem foldl_set_get {β : Type} (d : Dict Str β) : ∀ (r : Dict Str β) (k : Str), d.WF →
    (d.foldl (fun r kv => Dict.set r kv.1 kv.2) r).get? k =
      match d.get? k with | some v => some v | none => r.get? k := by
  induction d with
  | nil => intro r k _; rfl
  | cons kv d ih =>
    obtain ⟨k', v'⟩ := kv
    intro r k h
    have h' := List.nodup_cons.1 h
    rw [List.foldl_cons, ih _ _ h'.2, Dict.get?_cons]
    by_cases hk : k' = k
    · subst hk
      rw [Dict.get?_none.2 h'.1, Dict.get?_set]; simp
    · rw [if_neg hk, Dict.get?_set, if_neg hk]

theorem mergeDols_get {β : Type} {d1 d2 : Dict Str (List β)} (h1 : d1.WF) (h2 : d2.WF) (k : Str) :
    (mergeDols d1 d2).get? k =
      match d1.get? k, d2.get? k with
      | some a, some b => some (a ++ b)
      | some a, none => some a
      | none, some b => some b
      | none, none => none := by
  unfold mergeDols
  dsimp only
  have key : ∀ (e r : Dict Str (List β)), e.WF →
      (e.foldl (mergeStep d2) r).get? k =
      match e.get? k, d2.get? k with
      | some a, some b => some (a ++ b)
      | _, _ => r.get? k := by
    intro e
    induction e with
    | nil => intro r _; rfl
    | cons kv e ih =>
      obtain ⟨k', v'⟩ := kv
      intro r h
      have h' := List.nodup_cons.1 h
      rw [List.foldl_cons, ih _ h'.2, Dict.get?_cons]
      by_cases hk : k' = k
      · subst hk
        rw [Dict.get?_none.2 h'.1]
        simp only [if_true, mergeStep]
        cases d2.get? k' with
        | none => rfl
        | some b => simp [Dict.get?_set]
      · rw [if_neg hk]
        have : (mergeStep d2 r (k', v')).get? k = r.get? k := by
          unfold mergeStep; dsimp only
          cases d2.get? k' with
          | none => rfl
          | some b => simp [Dict.get?_set, hk]
        rw [this]
  rw [key _ _ h1, foldl_set_get _ _ _ h2]
  cases d1.get? k <;> cases d2.get? k <;> rfl

theorem foldl_set_wf {β : Type} (d : Dict Str β) : ∀ (r : Dict Str β), r.WF →
    (d.foldl (fun r kv => Dict.set r kv.1 kv.2) r).WF := by
  induction d with
  | nil => intro r h; exact h
  | cons kv d ih => intro r h; exact ih _ (h.set _ _)

theorem mergeDols_wf {β : Type} {d1 d2 : Dict Str (List β)} (h1 : d1.WF) : (mergeDols d1 d2).WF := by
  unfold mergeDols
  have : ∀ (e r : Dict Str (List β)), r.WF → (e.foldl (mergeStep d2) r).WF := by
    intro e
    induction e with
    | nil => intro r h; exact h
    | cons kv e ih =>
      intro r h
      refine ih _ ?_
      unfold mergeStep
      split
      · exact h.set _ _
      · exact h
  exact this _ _ (foldl_set_wf _ _ h1)

end Verif.Lib
