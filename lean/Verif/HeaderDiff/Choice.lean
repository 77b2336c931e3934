import Verif.HeaderDiff.IntLemmas
import Mathlib.Data.List.Basic
/-
headerdiff: prefixes, and what determineRepresentation chooses.
-/
namespace Verif.HeaderDiff
open Verif

/-! ### Prefixes -/

theorem commonPrefix_take (s t : Str) : s.take (commonPrefix s t) = t.take (commonPrefix s t) := by
  induction s generalizing t with
  | nil => simp [commonPrefix]
  | cons a s ih =>
    cases t with
    | nil => simp [commonPrefix]
    | cons b t =>
      unfold commonPrefix
      by_cases h : a ≠ b
      · rw [if_pos h]; rfl
      · rw [if_neg h, List.take_succ_cons, List.take_succ_cons, ih t]
        rw [not_not.1 h]

theorem commonPrefix_le (s t : Str) : commonPrefix s t ≤ s.length ∧ commonPrefix s t ≤ t.length := by
  induction s generalizing t with
  | nil => simp [commonPrefix]
  | cons a s ih =>
    cases t with
    | nil => simp [commonPrefix]
    | cons b t =>
      unfold commonPrefix
      have := ih t
      by_cases h : a ≠ b
      · rw [if_pos h]; simp
      · rw [if_neg h]; simp only [List.length_cons]; omega

theorem commonPrefix_max (s t : Str) (k : Nat) (hs : k ≤ s.length) (ht : k ≤ t.length) (h : s.take k = t.take k) :
    k ≤ commonPrefix s t := by
  induction s generalizing t k with
  | nil => simp at hs; omega
  | cons a s ih =>
    cases t with
    | nil => simp at ht; omega
    | cons b t =>
      rcases k with _ | k
      · omega
      · rw [List.take_succ_cons, List.take_succ_cons] at h
        injection h with h1 h2
        unfold commonPrefix
        rw [if_neg (by simpa using h1)]
        have := ih t k (by simpa using hs) (by simpa using ht) h2
        omega

theorem limitedLoop_spec (s limits : Str) : ∀ i, limitedLoop s limits i ≤ i ∧
    (limitedLoop s limits i ≠ 0 → ∃ c, s[limitedLoop s limits i - 1]? = some c ∧ c ∈ limits) ∧
    ∀ j c, limitedLoop s limits i < j → j ≤ i → s[j - 1]? = some c → c ∉ limits := by
  intro i
  induction i with
  | zero => exact ⟨Nat.le_refl _, by simp [limitedLoop], fun j c h1 h2 => by omega⟩
  | succ i ih =>
    unfold limitedLoop
    by_cases h : (s[i]?).any (limits.contains ·) = true
    · rw [if_pos h]
      refine ⟨Nat.le_refl _, fun _ => ?_, fun j c h1 h2 => by omega⟩
      obtain ⟨c, hc, hl⟩ := (Option.any_eq_true _ _).1 h
      exact ⟨c, hc, by simpa using hl⟩
    · rw [if_neg h]
      obtain ⟨h1, h2, h3⟩ := ih
      refine ⟨by omega, h2, fun j c hj1 hj2 hc hm => ?_⟩
      rcases Nat.lt_or_ge j (i + 1) with hlt | hge
      · exact h3 j c hj1 (by omega) hc hm
      · have hj : j = i + 1 := by omega
        subst hj
        rw [Nat.add_sub_cancel] at hc
        apply h
        rw [hc]
        simpa using hm

theorem shared_le (t : DeltaType) (s iv : Str) : sharedPrefix t s iv ≤ commonPrefix s iv := by
  cases t with
  | full => exact Nat.le_refl _
  | bound l => exact (limitedLoop_spec s l _).1
  | max n => exact Nat.le_refl _

theorem take_le {s t : Str} {n k : Nat} (h : s.take n = t.take n) (hk : k ≤ n) : s.take k = t.take k := by
  have := congrArg (List.take k) h
  simpa [List.take_take, Nat.min_eq_left hk] using this

/-- The prefix of the indexed value, followed by the rest of the value. -/
theorem shared_join (t : DeltaType) (s iv : Str) : iv.take (sharedPrefix t s iv) ++ s.drop (sharedPrefix t s iv) = s := by
  rw [← take_le (commonPrefix_take s iv) (shared_le t s iv), List.take_append_drop]

/-! ### Representations -/

/-- An entry that may serve as reference for a delta. -/
def Usable (t : DeltaType) (name : Str) (e : Entry) : Prop := e.name = name ∧ usedUp t e = false

theorem bestLoop_spec (t : DeltaType) (name value : Str) (l : List (Str × Entry)) : ∀ (best : Nat) (ref : Option Entry),
    let r := bestLoop t name value l best ref
    best ≤ r.1 ∧ (r = (best, ref) ∨ ∃ k e, (k, e) ∈ l ∧ Usable t name e ∧ r = (sharedPrefix t value e.value, some e)) ∧
    ∀ k e, (k, e) ∈ l → Usable t name e → sharedPrefix t value e.value ≤ r.1 := by
  induction l with
  | nil => intro best ref; exact ⟨Nat.le_refl _, Or.inl rfl, by simp⟩
  | cons p l ih =>
    intro best ref
    obtain ⟨k0, e0⟩ := p
    have skip : ∀ best ref, ¬ (Usable t name e0 ∧ ¬ sharedPrefix t value e0.value ≤ best) →
        let r := bestLoop t name value l best ref
        best ≤ r.1 ∧ (r = (best, ref) ∨ ∃ k e, (k, e) ∈ (k0, e0) :: l ∧ Usable t name e ∧
          r = (sharedPrefix t value e.value, some e)) ∧
        ∀ k e, (k, e) ∈ (k0, e0) :: l → Usable t name e → sharedPrefix t value e.value ≤ r.1 := by
      intro best ref hno
      obtain ⟨h1, h2, h3⟩ := ih best ref
      refine ⟨h1, ?_, fun k e hm hu => ?_⟩
      · rcases h2 with h2 | ⟨k, e, hm, hu, hr⟩
        · exact Or.inl h2
        · exact Or.inr ⟨k, e, List.mem_cons_of_mem _ hm, hu, hr⟩
      · rcases List.mem_cons.1 hm with heq | hm
        · injection heq with _ heq
          subst heq
          by_contra hc
          exact hno ⟨hu, by omega⟩
        · exact h3 k e hm hu
    simp only [bestLoop]
    by_cases hn : e0.name = name
    · rw [if_pos hn]
      by_cases hu : usedUp t e0 = true
      · rw [if_pos hu]
        exact skip best ref fun h => by simp [Usable, hu] at h
      · rw [if_neg hu]
        have hus : Usable t name e0 := ⟨hn, by simpa using hu⟩
        by_cases hk : sharedPrefix t value e0.value ≥ best
        · rw [if_pos hk]
          obtain ⟨h1, h2, h3⟩ := ih (sharedPrefix t value e0.value) (some e0)
          refine ⟨Nat.le_trans hk h1, Or.inr ?_, fun k e hm hu => ?_⟩
          · rcases h2 with h2 | ⟨k, e, hm, hu, hr⟩
            · exact ⟨k0, e0, List.mem_cons_self, hus, h2⟩
            · exact ⟨k, e, List.mem_cons_of_mem _ hm, hu, hr⟩
          · rcases List.mem_cons.1 hm with heq | hm
            · injection heq with _ heq
              subst heq
              exact h1
            · exact h3 k e hm hu
        · rw [if_neg hk]
          exact skip best ref fun h => by omega
    · rw [if_neg hn]
      exact skip best ref fun h => hn h.1.1

theorem lruLoop_spec (value : Str) (remaining : Int) (l : List (Str × Entry)) : ∀ old,
    lruLoop value remaining l old = old ∨ ∃ k e, (k, e) ∈ l ∧ lruLoop value remaining l old = some e ∧
      (value.length : Int) - e.value.length < remaining := by
  induction l with
  | nil => intro old; exact Or.inl rfl
  | cons p l ih =>
    intro old
    obtain ⟨k0, e0⟩ := p
    have skip : ∀ old, lruLoop value remaining l old = old ∨ ∃ k e, (k, e) ∈ (k0, e0) :: l ∧
        lruLoop value remaining l old = some e ∧ (value.length : Int) - e.value.length < remaining := by
      intro old
      rcases ih old with h | ⟨k, e, hm, h⟩
      · exact Or.inl h
      · exact Or.inr ⟨k, e, List.mem_cons_of_mem _ hm, h⟩
    have take : (value.length : Int) - e0.value.length < remaining →
        lruLoop value remaining l (some e0) = old ∨ ∃ k e, (k, e) ∈ (k0, e0) :: l ∧
        lruLoop value remaining l (some e0) = some e ∧ (value.length : Int) - e.value.length < remaining := by
      intro hlt
      rcases ih (some e0) with h | ⟨k, e, hm, h⟩
      · exact Or.inr ⟨k0, e0, List.mem_cons_self, h, hlt⟩
      · exact Or.inr ⟨k, e, List.mem_cons_of_mem _ hm, h⟩
    unfold lruLoop
    by_cases ha : e0.age > 1
    · rw [if_pos ha]
      by_cases hr : (value.length : Int) - e0.value.length < remaining
      · rw [if_pos hr]
        cases old with
        | none => exact take hr
        | some o =>
          simp only
          split
          · exact take hr
          · exact skip (some o)
      · rw [if_neg hr]; exact skip old
    · rw [if_neg ha]; exact skip old

/-- What the encoder may choose for a header that is not in its table. -/
structure Chosen (cfg : Cfg) (st : Enc) (name value : Str) (hr : HR) : Prop where
  kind : hr.kind ≠ .indexed
  delta : hr.kind = .delta → cfg.deltaUsage = true ∧ ∃ k e, (k, e) ∈ st.table ∧ hr.reference = some e ∧
    Usable cfg.deltaType name e ∧ hr.prefixLength = sharedPrefix cfg.deltaType value e.value ∧ 1 < hr.prefixLength ∧
    ∀ k' e', (k', e') ∈ st.table → Usable cfg.deltaType name e' → sharedPrefix cfg.deltaType value e'.value ≤ hr.prefixLength
  sub : hr.indexing = .substitution → ∃ k e, (k, e) ∈ st.table ∧ hr.reference = some e ∧
    st.size - e.value.length + value.length < cfg.maxSize
  inc : hr.indexing = .incremental → st.size + value.length < cfg.maxSize

/-- An iteration order lists exactly the items of the table. -/
def OrderOk (order : Order) : Prop := ∀ n t, (order n t).Perm t

theorem chooseNew_spec {order : Order} (ho : OrderOk order) (cfg : Cfg) (st : Enc) (name value : Str) :
    Chosen cfg st name value (chooseNew order cfg st name value) := by
  have hmem : ∀ p, p ∈ order st.ticks st.table ↔ p ∈ st.table := fun p => (ho _ _).mem_iff
  unfold chooseNew
  by_cases hpath : (!cfg.deltaUsage && name == b!":path") = true
  · rw [if_pos hpath]
    exact ⟨by simp, by simp, by simp, by simp⟩
  · rw [if_neg hpath]
    have hbest : let r := (if cfg.deltaUsage then bestLoop cfg.deltaType name value (order st.ticks st.table) 0 none else (0, none))
        r.1 > 1 → cfg.deltaUsage = true ∧ ∃ k e, (k, e) ∈ st.table ∧ r.2 = some e ∧ Usable cfg.deltaType name e ∧
          r.1 = sharedPrefix cfg.deltaType value e.value ∧
          ∀ k' e', (k', e') ∈ st.table → Usable cfg.deltaType name e' → sharedPrefix cfg.deltaType value e'.value ≤ r.1 := by
      intro r hr
      by_cases hd : cfg.deltaUsage = true
      · have hr' : r = bestLoop cfg.deltaType name value (order st.ticks st.table) 0 none := if_pos hd
        obtain ⟨_, h2, h3⟩ := bestLoop_spec cfg.deltaType name value (order st.ticks st.table) 0 none
        simp only [← hr'] at h2 h3
        rcases h2 with h2 | ⟨k, e, hm, hu, h2⟩
        · rw [h2] at hr; simp at hr
        · exact ⟨hd, k, e, (hmem _).1 hm, by rw [h2], hu, by rw [h2], fun k' e' hm' hu' => h3 k' e' ((hmem _).2 hm') hu'⟩
      · have hr' : r = (0, none) := if_neg hd
        rw [hr'] at hr
        simp at hr
    generalize (if cfg.deltaUsage then bestLoop cfg.deltaType name value (order st.ticks st.table) 0 none else (0, none)) = r at hbest
    obtain ⟨best, ref⟩ := r
    simp only at hbest ⊢
    by_cases hb : best > 1
    · rw [if_pos hb]
      obtain ⟨hd, k, e, hm, hr, hu, hk, hmax⟩ := hbest hb
      subst hr
      simp only
      by_cases h1 : (¬ (cfg.isRequest = true ∧ cfg.maxSize < 10000) ∨ (value.length : Int) - e.value.length > 15) ∧
          st.size + value.length < cfg.maxSize
      · rw [if_pos h1]
        exact ⟨by simp, fun _ => ⟨hd, k, e, hm, rfl, hu, hk, hb, hmax⟩, by simp, fun _ => h1.2⟩
      · rw [if_neg h1]
        by_cases h2 : st.size + ((value.length : Int) - e.value.length) < cfg.maxSize
        · rw [if_pos h2]
          exact ⟨by simp, fun _ => ⟨hd, k, e, hm, rfl, hu, hk, hb, hmax⟩, fun _ => ⟨k, e, hm, rfl, by omega⟩, by simp⟩
        · rw [if_neg h2]
          exact ⟨by simp, fun _ => ⟨hd, k, e, hm, rfl, hu, hk, hb, hmax⟩, by simp, by simp⟩
    · rw [if_neg hb]
      by_cases h1 : st.size + value.length < cfg.maxSize
      · rw [if_pos h1]
        exact ⟨by simp, by simp, by simp, fun _ => h1⟩
      · rw [if_neg h1]
        rcases lruLoop_spec value (cfg.maxSize - st.size) (order st.ticks st.table) none with h | ⟨k, e, hm, h, hlt⟩
        · rw [h]
          exact ⟨by simp, by simp, by simp, by simp⟩
        · rw [h]
          exact ⟨by simp, by simp, fun _ => ⟨k, e, (hmem _).1 hm, rfl, by omega⟩, by simp⟩

end Verif.HeaderDiff
