import Verif.Delta2.Codec
import Verif.PyLemmas
import Verif.Lib.Lemmas
import Mathlib.Data.List.Induction
/-
Sets as lists, and dictionaries made by AppendToHeaders.
-/
namespace Verif.Delta2
open Verif

/-! ### Sets -/

section
variable {α : Type} [DecidableEq α]

theorem mem_addSet {s : List α} {x y : α} : y ∈ addSet s x ↔ y ∈ s ∨ y = x := by
  unfold addSet
  split
  · rename_i h
    constructor
    · exact .inl
    · rintro (h' | rfl)
      · exact h'
      · exact h
  · simp

theorem nodup_addSet {s : List α} {x : α} (h : s.Nodup) : (addSet s x).Nodup := by
  unfold addSet
  split
  · exact h
  · rename_i hx
    rw [List.nodup_append]
    refine ⟨h, by simp, fun a ha b hb => ?_⟩
    simp only [List.mem_singleton] at hb
    subst hb
    rintro rfl
    exact hx ha

theorem mem_addAll {l s : List α} {y : α} : y ∈ l.foldl addSet s ↔ y ∈ s ∨ y ∈ l := by
  induction l generalizing s with
  | nil => simp
  | cons x xs ih =>
    rw [List.foldl_cons, ih, mem_addSet, List.mem_cons]
    tauto

theorem nodup_addAll {l s : List α} (h : s.Nodup) : (l.foldl addSet s).Nodup := by
  induction l generalizing s with
  | nil => exact h
  | cons x xs ih => exact ih (nodup_addSet h)

theorem mem_toggleSet {s : List α} {x y : α} : y ∈ toggleSet s x ↔ (y ∈ s ∧ y ≠ x) ∨ (y ∉ s ∧ y = x) := by
  unfold toggleSet
  split
  · rename_i h
    simp only [List.mem_filter, decide_eq_true_eq, ne_eq]
    constructor
    · exact .inl
    · rintro (h' | ⟨h1, rfl⟩)
      · exact h'
      · exact absurd h h1
  · rename_i h
    simp only [List.mem_append, List.mem_singleton]
    constructor
    · rintro (h' | rfl)
      · exact .inl ⟨h', fun e => h (e ▸ h')⟩
      · exact .inr ⟨h, rfl⟩
    · rintro (⟨h', _⟩ | ⟨_, rfl⟩)
      · exact .inl h'
      · exact .inr rfl

theorem nodup_toggleSet {s : List α} {x : α} (h : s.Nodup) : (toggleSet s x).Nodup := by
  by_cases hx : x ∈ s
  · simp only [toggleSet, if_pos hx]
    exact h.filter _
  · have := nodup_addSet (x := x) h
    simpa only [toggleSet, addSet, if_neg hx] using this

theorem mem_symDiff {a b : List α} (hb : b.Nodup) {y : α} :
    y ∈ symDiff a b ↔ (y ∈ a ∧ y ∉ b) ∨ (y ∉ a ∧ y ∈ b) := by
  unfold symDiff
  induction b generalizing a with
  | nil => simp
  | cons x xs ih =>
    rw [List.nodup_cons] at hb
    rw [List.foldl_cons, ih hb.2, mem_toggleSet, List.mem_cons]
    by_cases hyx : y = x
    · subst hyx
      by_cases hya : y ∈ a <;> simp [hya, hb.1]
    · simp [hyx]

theorem nodup_symDiff {a b : List α} (ha : a.Nodup) : (symDiff a b).Nodup := by
  unfold symDiff
  induction b generalizing a with
  | nil => exact ha
  | cons x xs ih => exact ih (nodup_toggleSet ha)

theorem toggle_append {a b : List α} (h : (a ++ b).Nodup) : b.foldl toggleSet a = a ++ b := by
  induction b generalizing a with
  | nil => simp
  | cons x xs ih =>
    have hx : x ∉ a := by
      intro hx
      rw [List.nodup_append] at h
      exact h.2.2 x hx x (by simp) rfl
    rw [List.foldl_cons, toggleSet, if_neg hx, ih (by simpa using h)]
    simp

end

/-! ### Headers -/

/-- AppendToHeaders for some pairs. -/
def appendAll (ps : List Hdr) (h : Dict Str Str) : Dict Str Str := ps.foldl (fun h p => appendToHeaders h p.1 p.2) h

/-- The values of the pairs with the name `k`, in order. -/
def valsOf (ps : List Hdr) (k : Str) : List Str := (ps.filter fun p => p.1 = k).map (·.2)

theorem mem_valsOf {ps : List Hdr} {k v : Str} : v ∈ valsOf ps k ↔ (k, v) ∈ ps := by
  simp only [valsOf, List.mem_map, List.mem_filter, decide_eq_true_eq]
  constructor
  · rintro ⟨⟨a, b⟩, ⟨h1, h2⟩, h3⟩
    simp only at h2 h3
    subst h2 h3
    exact h1
  · intro h
    exact ⟨(k, v), ⟨h, rfl⟩, rfl⟩

theorem valsOf_snoc (ps : List Hdr) (p : Hdr) (k : Str) :
    valsOf (ps ++ [p]) k = if p.1 = k then valsOf ps k ++ [p.2] else valsOf ps k := by
  simp only [valsOf, List.filter_append, List.map_append]
  split <;> rename_i h <;> simp [h]

theorem joinWith_snoc (c : Str) (ps : List Str) (p : Str) (h : ps ≠ []) :
    joinWith c (ps ++ [p]) = joinWith c ps ++ c ++ p := by
  induction ps with
  | nil => exact absurd rfl h
  | cons q qs ih =>
    cases qs with
    | nil => simp [joinWith]
    | cons r rs =>
      have := ih (by simp)
      simp only [List.cons_append, joinWith] at this ⊢
      rw [this]
      simp [List.append_assoc]

theorem appendToHeaders_wf {h : Dict Str Str} (hwf : Dict.WF h) (k v : Str) : Dict.WF (appendToHeaders h k v) := by
  unfold appendToHeaders
  split <;> exact hwf.set _ _

theorem appendAll_wf (ps : List Hdr) {h : Dict Str Str} (hwf : Dict.WF h) : Dict.WF (appendAll ps h) := by
  unfold appendAll
  induction ps generalizing h with
  | nil => exact hwf
  | cons p ps ih => exact ih (appendToHeaders_wf hwf _ _)

/-- What AppendToHeaders makes of some pairs. -/
theorem get?_appendAll (ps : List Hdr) (k : Str) :
    Dict.get? (appendAll ps []) k = if valsOf ps k = [] then none else some (joinWith [0] (valsOf ps k)) := by
  induction ps using List.reverseRecOn with
  | nil => simp [appendAll, valsOf]
  | append_singleton ps p ih =>
    have hstep : appendAll (ps ++ [p]) [] = appendToHeaders (appendAll ps []) p.1 p.2 := by
      simp [appendAll]
    rw [hstep, valsOf_snoc]
    by_cases hpk : p.1 = k
    · rw [if_pos hpk, if_neg (by simp)]
      unfold appendToHeaders
      rw [hpk, ih]
      by_cases hv : valsOf ps k = []
      · rw [if_pos hv]
        simp only
        rw [Dict.get?_set, if_pos rfl, hv]
        simp [joinWith]
      · rw [if_neg hv]
        simp only
        rw [Dict.get?_set, if_pos rfl, joinWith_snoc _ _ _ hv]
    · rw [if_neg hpk, ← ih]
      unfold appendToHeaders
      split <;> rw [Dict.get?_set, if_neg hpk]

theorem mem_headersSet {h : Dict Str Str} {x : Hdr} : x ∈ headersSet h ↔ x ∈ h.flatMap splitHeader := by
  simp [headersSet, mem_addAll]

theorem nodup_headersSet (h : Dict Str Str) : (headersSet h).Nodup := nodup_addAll List.nodup_nil

theorem splitHeader_fst {kv x : Hdr} (h : x ∈ splitHeader kv) : x.1 = kv.1 := by
  unfold splitHeader at h
  split at h <;> (simp only [List.mem_map] at h; obtain ⟨p, _, rfl⟩ := h; rfl)

theorem mem_splitHeader {k v : Str} {x : Str} :
    (k, x) ∈ splitHeader (k, v) ↔ ∃ p ∈ splitOn (Lib.Spec.sepOf k) v, stripSpace p = x := by
  unfold splitHeader Lib.Spec.sepOf
  by_cases hk : k = b!"cookie"
  · simp only [if_pos hk, List.mem_map, Prod.mk.injEq, true_and]
  · simp only [if_neg hk, List.mem_map, Prod.mk.injEq, true_and]

/-- The pieces of headers that the pieces of `h` were put into, together. -/
theorem splitHeader_ne (kv : Hdr) : splitHeader kv ≠ [] := by
  unfold splitHeader
  split <;> simp [splitOn_ne_nil]

theorem stripSpace_idem (x : Str) : stripSpace (stripSpace x) = stripSpace x :=
  stripBy_stripBy (fun _ h => h) x

/-- Replacing the NULs of joined strings. -/
theorem replace_join (vs : List Str) (h : ∀ v ∈ vs, 0 ∉ v) :
    (joinWith [0] vs).flatMap (fun c => if c = 0 then b!"; " else [c]) = joinWith b!"; " vs := by
  have hid : ∀ v : Str, 0 ∉ v → v.flatMap (fun c => if c = 0 then b!"; " else [c]) = v := by
    intro v hv
    induction v with
    | nil => rfl
    | cons c v ih =>
      rw [List.flatMap_cons, if_neg (fun h0 => hv (by simp [h0])), ih (fun h0 => hv (by simp [h0]))]
      rfl
  induction vs with
  | nil => rfl
  | cons v vs ih =>
    cases vs with
    | nil => simpa [joinWith] using hid v (h v (by simp))
    | cons w ws =>
      have := ih (fun x hx => h x (by simp only [List.mem_cons] at hx ⊢; tauto))
      simp only [joinWith, List.flatMap_append] at this ⊢
      rw [this, hid v (h v (by simp))]
      rfl

/-- Splitting what was joined by `; `. -/
theorem mem_splitOn_semi (vs : List Str) (hne : vs ≠ []) (h : ∀ v ∈ vs, 59 ∉ v) (x : Str) :
    (∃ p ∈ splitOn 59 (joinWith b!"; " vs), stripSpace p = x) ↔ ∃ v ∈ vs, stripSpace v = x := by
  have key : ∀ (vs : List Str), vs ≠ [] → (∀ v ∈ vs, 59 ∉ v) → ∀ (pre : Str), (∀ c ∈ pre, c = 32) →
      ((∃ p ∈ splitOn 59 (pre ++ joinWith b!"; " vs), stripSpace p = x) ↔ ∃ v ∈ vs, stripSpace v = x) := by
    intro vs
    induction vs with
    | nil => intro h; exact absurd rfl h
    | cons v vs ih =>
      intro _ hv pre hpre
      have hs : stripSpace (pre ++ v) = stripSpace v := by
        obtain ⟨a, b, e, ha, hb, h1, h2⟩ := stripBy_spec (fun c => c == 32) v
        have := stripBy_unique (p := fun c => c == 32) (a := pre ++ a) (x := stripBy (fun c => c == 32) v) (b := b)
          (by intro c hc
              rcases List.mem_append.1 hc with hc | hc
              · simp [hpre c hc]
              · exact ha c hc) hb h1 h2
        unfold stripSpace
        rw [← this]
        conv_lhs => rw [e]
        rw [this]
        simp only [← List.append_assoc]
        rw [this]
      have hno : 59 ∉ pre ++ v := by
        intro hc
        rcases List.mem_append.1 hc with hc | hc
        · have := hpre 59 hc
          omega
        · exact hv v (by simp) hc
      cases vs with
      | nil =>
        simp only [joinWith]
        rw [splitOn_noSep hno]
        simp [hs]
      | cons w ws =>
        have := ih (by simp) (fun x hx => hv x (by simp only [List.mem_cons] at hx ⊢; tauto)) [32] (by simp)
        simp only [joinWith]
        rw [show pre ++ (v ++ b!"; " ++ joinWith b!"; " (w :: ws)) = (pre ++ v) ++ 59 :: ([32] ++ joinWith b!"; " (w :: ws)) by
          simp [List.append_assoc], splitOn_append hno]
        simp only [List.mem_cons, exists_eq_or_imp, hs] at this ⊢
        rw [this]
  simpa using key vs hne h [] (by simp)

/-- Headers put together from the pieces of `h`, in any order, have the same pieces. -/
theorem same_pieces {h : Dict Str Str} {ps : List Hdr} (hps : ∀ x, x ∈ ps ↔ x ∈ h.flatMap splitHeader)
    (hc : ∀ v, (b!"cookie", v) ∈ h → 0 ∉ v) (x : Hdr) :
    x ∈ (fixCookie (appendAll ps [])).flatMap splitHeader ↔ x ∈ h.flatMap splitHeader := by
  have hwf : Dict.WF (appendAll ps []) := appendAll_wf ps Dict.wf_nil
  have hwf' : Dict.WF (fixCookie (appendAll ps [])) := by
    unfold fixCookie
    split
    · exact hwf.set _ _
    · exact hwf
  obtain ⟨k, y⟩ := x
  rw [← hps (k, y)]
  have hval : ∀ v ∈ valsOf ps k, stripSpace v = v ∧ Lib.Spec.sepOf k ∉ v ∧ (k = b!"cookie" → 0 ∉ v) := by
    intro v hv
    rw [mem_valsOf, hps, List.mem_flatMap] at hv
    obtain ⟨⟨k', w⟩, hw, hm⟩ := hv
    have := splitHeader_fst hm
    simp only at this
    subst this
    rw [mem_splitHeader] at hm
    obtain ⟨p, hp, rfl⟩ := hm
    refine ⟨stripSpace_idem p, fun hc' => splitOn_noSep_mem hp (stripBy_sub hc'), fun hk h0 => ?_⟩
    have h0' : 0 ∈ p := stripBy_sub h0
    subst hk
    refine hc w hw ?_
    rw [← joinWith_splitOn (Lib.Spec.sepOf b!"cookie") w]
    clear hc hw hwf hwf' hps
    generalize splitOn (Lib.Spec.sepOf b!"cookie") w = qs at hp
    induction qs with
    | nil => simp at hp
    | cons q qs ih =>
      cases qs with
      | nil => simp only [List.mem_cons, List.not_mem_nil, or_false] at hp; subst hp; simpa [joinWith] using h0'
      | cons r rs =>
        simp only [joinWith, List.mem_append]
        rcases List.mem_cons.1 hp with rfl | hp
        · exact .inl (.inl h0')
        · exact .inr (ih hp)
  have hkey : (k, y) ∈ (fixCookie (appendAll ps [])).flatMap splitHeader ↔
      ∃ v, Dict.get? (fixCookie (appendAll ps [])) k = some v ∧ ∃ p ∈ splitOn (Lib.Spec.sepOf k) v, stripSpace p = y := by
    rw [List.mem_flatMap]
    constructor
    · rintro ⟨⟨k', v⟩, hm, hx⟩
      have := splitHeader_fst hx
      simp only at this
      subst this
      exact ⟨v, (Dict.mem_iff_get? hwf').1 hm, mem_splitHeader.1 hx⟩
    · rintro ⟨v, hg, hx⟩
      exact ⟨(k, v), (Dict.mem_iff_get? hwf').2 hg, mem_splitHeader.2 hx⟩
  rw [hkey, ← mem_valsOf]
  have hmem : (∃ v ∈ valsOf ps k, stripSpace v = y) ↔ y ∈ valsOf ps k := by
    constructor
    · rintro ⟨v, hv, rfl⟩
      rw [(hval v hv).1]
      exact hv
    · intro hy
      exact ⟨y, hy, (hval y hy).1⟩
  rw [← hmem]
  by_cases hk : k = b!"cookie"
  · subst hk
    have hsep : Lib.Spec.sepOf b!"cookie" = 59 := rfl
    rw [hsep] at hval ⊢
    have hg := get?_appendAll ps b!"cookie"
    unfold fixCookie
    by_cases hv : valsOf ps b!"cookie" = []
    · rw [if_pos hv] at hg
      simp [hg, hv]
    · rw [if_neg hv] at hg
      rw [hg]
      simp only [Dict.get?_set, if_true, Option.some.injEq]
      rw [replace_join _ (fun v hv => (hval v hv).2.2 rfl)]
      rw [← mem_splitOn_semi _ hv (fun v hv => (hval v hv).2.1) y]
      constructor
      · rintro ⟨v, rfl, h⟩
        exact h
      · intro h
        exact ⟨_, rfl, h⟩
  · have hsep : Lib.Spec.sepOf k = 0 := by simp only [Lib.Spec.sepOf, if_neg hk]
    rw [hsep] at hval ⊢
    have hg : Dict.get? (fixCookie (appendAll ps [])) k = Dict.get? (appendAll ps []) k := by
      unfold fixCookie
      split
      · rw [Dict.get?_set, if_neg (fun e => hk e.symm)]
      · rfl
    rw [hg, get?_appendAll]
    by_cases hv : valsOf ps k = []
    · simp [hv]
    · rw [if_neg hv]
      simp only [Option.some.injEq]
      have hj := splitOn_joinWith (c := 0) hv (fun v hv => (hval v hv).2.1)
      constructor
      · rintro ⟨v, rfl, h⟩
        rwa [hj] at h
      · intro h
        exact ⟨_, rfl, by rwa [hj]⟩

/-- The cookie given out contains no NUL. -/
theorem fixCookie_noNul (ps : List Hdr) {v : Str} (hv : (b!"cookie", v) ∈ fixCookie (appendAll ps [])) : 0 ∉ v := by
  have hwf : Dict.WF (appendAll ps []) := appendAll_wf ps Dict.wf_nil
  unfold fixCookie at hv
  split at hv
  · rename_i w hw
    have := (Dict.mem_iff_get? (hwf.set b!"cookie" _)).1 hv
    rw [Dict.get?_set, if_pos rfl] at this
    simp only [Option.some.injEq] at this
    subst this
    simp only [List.mem_flatMap, not_exists, not_and]
    intro c _ h0
    split at h0
    · simp at h0
    · simp only [List.mem_singleton] at h0
      omega
  · rename_i hn
    have := (Dict.mem_iff_get? hwf).1 hv
    rw [hn] at this
    simp at this

/-- A NUL stays in one of the pieces of a cookie. -/
theorem nul_piece {v : Str} (h : 0 ∈ v) : ∃ p ∈ splitOn 59 v, 0 ∈ stripSpace p := by
  have key : ∀ qs : List Str, 0 ∈ joinWith [59] qs → ∃ p ∈ qs, 0 ∈ p := by
    intro qs
    induction qs with
    | nil => simp [joinWith]
    | cons q qs ih =>
      cases qs with
      | nil => intro h; exact ⟨q, by simp, by simpa [joinWith] using h⟩
      | cons r rs =>
        intro h
        simp only [joinWith, List.mem_append] at h
        rcases h with (h | h) | h
        · exact ⟨q, by simp, h⟩
        · simp at h
        · obtain ⟨p, hp, h⟩ := ih h
          exact ⟨p, by simp [hp], h⟩
  rw [← joinWith_splitOn 59 v] at h
  obtain ⟨p, hp, h⟩ := key _ h
  refine ⟨p, hp, ?_⟩
  obtain ⟨⟨i, j, e⟩, _⟩ := Lib.isTrim_iff.2 (rfl : stripSpace p = stripSpace p)
  rw [e] at h
  simpa using h

end Verif.Delta2
