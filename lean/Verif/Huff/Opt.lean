import Verif.Huff.Spec
import Mathlib.Algebra.BigOperators.Group.List.Lemmas
import Mathlib.Algebra.Order.BigOperators.Group.List
import Mathlib.Tactic.Linarith
import Mathlib.Tactic.Ring
/-
Joining the two lightest weights is optimal.
-/
namespace Verif.Huff
open Verif Verif.Huff.Spec

/-- Weights with code lengths. -/
abbrev Plan := List (ℚ × Nat)

/-- Total length. -/
def Plan.cost (P : Plan) : ℚ := (P.map fun p => p.1 * (p.2 : ℚ)).sum

/-- The lengths satisfy Kraft's inequality. -/
def Plan.Kraft (P : Plan) : Prop := ∃ L, (∀ p ∈ P, p.2 ≤ L) ∧ (P.map fun p => 2 ^ (L - p.2)).sum ≤ 2 ^ L

@[simp] theorem cost_cons (p : ℚ × Nat) (P : Plan) : Plan.cost (p :: P) = p.1 * (p.2 : ℚ) + Plan.cost P := by
  simp [Plan.cost]

theorem perm_map_inv {α β : Type} (f : α → β) : ∀ (L : List β) (P : List α), (P.map f).Perm L →
    ∃ P' : List α, P'.Perm P ∧ P'.map f = L := by
  intro L
  induction L with
  | nil =>
    intro P h
    have := h.length_eq
    simp only [List.length_map, List.length_nil, List.length_eq_zero_iff] at this
    exact ⟨[], by rw [this], rfl⟩
  | cons x L ih =>
    intro P h
    have hx : x ∈ P.map f := h.mem_iff.2 (by simp)
    obtain ⟨p, hp, rfl⟩ := List.mem_map.1 hx
    obtain ⟨s, t, rfl⟩ := List.append_of_mem hp
    have h2 : ((s ++ t).map f).Perm L := by
      rw [List.map_append, List.map_cons] at h
      have := List.perm_middle.symm.trans h
      rw [← List.map_append] at this
      exact this.cons_inv
    obtain ⟨P', h3, h4⟩ := ih _ h2
    exact ⟨p :: P', (h3.cons p).trans List.perm_middle.symm, by rw [List.map_cons, h4]⟩

theorem cost_perm {P Q : Plan} (h : P.Perm Q) : Plan.cost P = Plan.cost Q := (h.map _).sum_eq

theorem kraft_perm {P Q : Plan} (h : (P.map (·.2)).Perm (Q.map (·.2))) (hk : Plan.Kraft P) : Plan.Kraft Q := by
  obtain ⟨L, h1, h2⟩ := hk
  have hb : ∀ l ∈ P.map (·.2), l ≤ L := by
    intro l hl
    obtain ⟨p, hp, rfl⟩ := List.mem_map.1 hl
    exact h1 p hp
  refine ⟨L, fun q hq => hb _ (h.mem_iff.2 (List.mem_map_of_mem hq)), ?_⟩
  have e : ∀ R : Plan, (R.map fun p => 2 ^ (L - p.2)) = (R.map (·.2)).map fun l => 2 ^ (L - l) := by
    intro R; rw [List.map_map]; rfl
  rw [e] at h2 ⊢
  rw [← (h.map fun l => 2 ^ (L - l)).sum_eq]
  exact h2

/-- The lightest weight may have the greatest length. -/
theorem swap_max (a : ℚ) (R : Plan) (ha : ∀ p ∈ R, a ≤ p.1) (l0 : Nat) :
    ∃ (l : Nat) (R' : Plan), R'.map (·.1) = R.map (·.1) ∧ (∀ p ∈ R', p.2 ≤ l) ∧
      (l :: R'.map (·.2)).Perm (l0 :: R.map (·.2)) ∧
      Plan.cost ((a, l) :: R') ≤ Plan.cost ((a, l0) :: R) := by
  induction R with
  | nil => exact ⟨l0, [], rfl, by simp, List.Perm.refl _, le_refl _⟩
  | cons x R ih =>
    obtain ⟨w, lx⟩ := x
    obtain ⟨l', R0, h1, h2, h3, h4⟩ := ih (fun p hp => ha p (by simp [hp]))
    have hw : a ≤ w := ha (w, lx) (by simp)
    simp only [cost_cons] at h4 ⊢
    by_cases hle : lx ≤ l'
    · refine ⟨l', (w, lx) :: R0, by simp [h1], ?_, ?_, ?_⟩
      · intro p hp
        rcases List.mem_cons.1 hp with rfl | hp
        · exact hle
        · exact h2 p hp
      · simp only [List.map_cons]
        exact (List.Perm.swap _ _ _).trans ((h3.cons lx).trans (List.Perm.swap _ _ _))
      · rw [cost_cons]
        linarith
    · refine ⟨lx, (w, l') :: R0, by simp [h1], ?_, ?_, ?_⟩
      · intro p hp
        rcases List.mem_cons.1 hp with rfl | hp
        · simp only; omega
        · have := h2 p hp; omega
      · simp only [List.map_cons]
        exact (h3.cons lx).trans (List.Perm.swap _ _ _)
      · rw [cost_cons]
        have hl : (l' : ℚ) ≤ (lx : ℚ) := by exact_mod_cast (by omega : l' ≤ lx)
        have := mul_nonneg (sub_nonneg.2 hw) (sub_nonneg.2 hl)
        simp only
        nlinarith

/-- From a plan for the weights `a`, `b`, `rest`, one for `a + b`, `rest`. -/
theorem merge_plan (a b : ℚ) (rest : List ℚ) (ha : 0 ≤ a) (hab : a ≤ b) (hb : ∀ w ∈ rest, b ≤ w)
    (P : Plan) (hP : (P.map (·.1)).Perm (a :: b :: rest)) (hk : Plan.Kraft P) :
    ∃ P' : Plan, (P'.map (·.1)).Perm ((a + b) :: rest) ∧ Plan.Kraft P' ∧ Plan.cost P' + (a + b) ≤ Plan.cost P := by
  obtain ⟨P1, hp1, he1⟩ := perm_map_inv (·.1) _ P hP
  cases P1 with
  | nil => simp at he1
  | cons p0 P1 =>
  cases P1 with
  | nil => simp at he1
  | cons p1 R =>
  obtain ⟨a', la⟩ := p0
  obtain ⟨b', lb⟩ := p1
  simp only [List.map_cons, List.cons.injEq] at he1
  obtain ⟨rfl, rfl, hR⟩ := he1
  have hRw : ∀ p ∈ R, b' ≤ p.1 := fun p hp => hb _ (by rw [← hR]; exact List.mem_map_of_mem hp)
  -- the lightest gets the greatest length
  obtain ⟨l, Q, q1, q2, q3, q4⟩ := swap_max a' ((b', lb) :: R) (by
    intro p hp
    rcases List.mem_cons.1 hp with rfl | hp
    · exact hab
    · exact hab.trans (hRw p hp)) la
  cases Q with
  | nil => simp at q1
  | cons q Q =>
  obtain ⟨b2, lb2⟩ := q
  simp only [List.map_cons, List.cons.injEq] at q1
  obtain ⟨rfl, hQ⟩ := q1
  -- the next lightest gets the next greatest length
  obtain ⟨m, S, s1, s2, s3, s4⟩ := swap_max b2 Q (by
    intro p hp
    have : p.1 ∈ R.map (·.1) := by rw [← hQ]; exact List.mem_map_of_mem hp
    obtain ⟨r, hr, hre⟩ := List.mem_map.1 this
    rw [← hre]; exact hRw r hr) lb2
  have hml : m ≤ l := by
    have : m ∈ lb2 :: Q.map (·.2) := s3.mem_iff.1 (by simp)
    rcases List.mem_cons.1 this with h | h
    · rw [h]; exact q2 (b2, lb2) (by simp)
    · obtain ⟨p, hp, rfl⟩ := List.mem_map.1 h
      exact q2 p (by simp [hp])
  have hkr : Plan.Kraft ((a', l) :: (b2, m) :: S) := by
    refine kraft_perm ?_ hk
    refine ((hp1.map (·.2)).symm.trans ?_)
    simp only [List.map_cons]
    refine q3.symm.trans ?_
    simp only [List.map_cons]
    exact s3.symm.cons l
  obtain ⟨L, hL, hsum⟩ := hkr
  have hlL : l ≤ L := hL (a', l) (by simp)
  -- there is room to shorten the greatest length to the next one
  have hroom : ((S.map fun p => 2 ^ (m - p.2)).sum + 1) + 1 ≤ 2 ^ m := by
    simp only [List.map_cons, List.sum_cons] at hsum
    have e : (S.map fun p => 2 ^ (L - p.2)).sum = 2 ^ (L - m) * (S.map fun p => 2 ^ (m - p.2)).sum := by
      have key : ∀ T : Plan, (∀ p ∈ T, p.2 ≤ m) →
          (T.map fun p => 2 ^ (L - p.2)).sum = 2 ^ (L - m) * (T.map fun p => 2 ^ (m - p.2)).sum := by
        intro T
        induction T with
        | nil => intro _; simp
        | cons p T ih =>
          intro hT
          have := hT p (by simp)
          simp only [List.map_cons, List.sum_cons]
          rw [ih (fun q hq => hT q (by simp [hq])), Nat.mul_add, ← pow_add]
          congr 2
          omega
      exact key S s2
    rw [e] at hsum
    have h1 : 0 < 2 ^ (L - l) := Nat.two_pow_pos _
    have h2 : 2 ^ L = 2 ^ (L - m) * 2 ^ m := by rw [← pow_add]; congr 1; omega
    rw [h2] at hsum
    have h3 : 2 ^ (L - m) * ((S.map fun p => 2 ^ (m - p.2)).sum + 1) < 2 ^ (L - m) * 2 ^ m := by
      rw [Nat.mul_add]; omega
    have := Nat.lt_of_mul_lt_mul_left h3
    omega
  have hm0 : 0 < m := by
    rcases Nat.eq_zero_or_pos m with h | h
    · subst h; simp at hroom
    · exact h
  refine ⟨(a' + b2, m - 1) :: S, ?_, ⟨m, ?_, ?_⟩, ?_⟩
  · simp only [List.map_cons]
    rw [s1, hQ, hR]
  · intro p hp
    rcases List.mem_cons.1 hp with rfl | hp
    · simp only; omega
    · exact s2 p hp
  · simp only [List.map_cons, List.sum_cons]
    rw [show m - (m - 1) = 1 by omega]
    omega
  · rw [← cost_perm hp1]
    simp only [cost_cons] at q4 s4 ⊢
    have hlm : (m : ℚ) ≤ (l : ℚ) := by exact_mod_cast hml
    have h1 : a' * (m : ℚ) ≤ a' * (l : ℚ) := mul_le_mul_of_nonneg_left hlm ha
    have h2 : ((m - 1 : Nat) : ℚ) = (m : ℚ) - 1 := by
      rw [Nat.cast_sub (by omega)]; simp
    rw [h2]
    linarith

/-! ### Prefix-free codes satisfy Kraft's inequality -/

/-- The code words beginning with `b`, without it. -/
def tails (b : Bool) (cs : List (List Bool)) : List (List Bool) :=
  cs.filterMap fun c => match c with
    | [] => none
    | x :: c => if x = b then some c else none

theorem tails_pairwise (b : Bool) {cs : List (List Bool)} (h : cs.Pairwise fun a b => ¬ a <+: b ∧ ¬ b <+: a) :
    (tails b cs).Pairwise fun a b => ¬ a <+: b ∧ ¬ b <+: a := by
  unfold tails
  rw [List.pairwise_filterMap]
  refine h.imp ?_
  intro x y hxy x' hx y' hy
  cases x with
  | nil => simp at hx
  | cons u x =>
    cases y with
    | nil => simp at hy
    | cons v y =>
      simp only [Option.ite_none_right_eq_some, Option.some.injEq] at hx hy
      obtain ⟨rfl, rfl⟩ := hx
      obtain ⟨rfl, rfl⟩ := hy
      simpa using hxy

theorem tails_sum (L : Nat) (cs : List (List Bool)) (hne : [] ∉ cs) :
    (cs.map fun c => 2 ^ (L + 1 - c.length)).sum =
      ((tails false cs).map fun c => 2 ^ (L - c.length)).sum + ((tails true cs).map fun c => 2 ^ (L - c.length)).sum := by
  induction cs with
  | nil => rfl
  | cons c cs ih =>
    simp only [List.mem_cons, not_or] at hne
    have ih := ih hne.2
    cases c with
    | nil => exact absurd rfl hne.1
    | cons x c =>
      simp only [List.map_cons, List.sum_cons, List.length_cons, ih]
      rw [show L + 1 - (c.length + 1) = L - c.length by omega]
      cases x
      · simp only [tails, List.filterMap_cons, if_true, List.map_cons, List.sum_cons]
        simp
        ring
      · simp only [tails, List.filterMap_cons, if_true, List.map_cons, List.sum_cons]
        simp
        ring

theorem tails_len {L : Nat} {b : Bool} {cs : List (List Bool)} (h : ∀ c ∈ cs, c.length ≤ L + 1) :
    ∀ c ∈ tails b cs, c.length ≤ L := by
  intro c hc
  simp only [tails, List.mem_filterMap] at hc
  obtain ⟨d, hd, he⟩ := hc
  cases d with
  | nil => simp at he
  | cons x d =>
    simp only [Option.ite_none_right_eq_some, Option.some.injEq] at he
    have := h _ hd
    rw [← he.2]
    simpa using this

theorem kraft_of_free (L : Nat) : ∀ cs : List (List Bool), (cs.Pairwise fun a b => ¬ a <+: b ∧ ¬ b <+: a) →
    (∀ c ∈ cs, c.length ≤ L) → (cs.map fun c => 2 ^ (L - c.length)).sum ≤ 2 ^ L := by
  have single : ∀ cs : List (List Bool), (cs.Pairwise fun a b => ¬ a <+: b ∧ ¬ b <+: a) → [] ∈ cs → cs = [[]] := by
    intro cs h hm
    cases cs with
    | nil => simp at hm
    | cons c cs =>
      rw [List.pairwise_cons] at h
      rcases List.mem_cons.1 hm with rfl | hm
      · cases cs with
        | nil => rfl
        | cons d cs => exact absurd List.nil_prefix (h.1 d (by simp)).1
      · exact absurd List.nil_prefix (h.1 [] hm).2
  induction L with
  | zero =>
    intro cs h hl
    cases cs with
    | nil => simp
    | cons c cs =>
      have : c = [] := List.length_eq_zero_iff.1 (by have := hl c (by simp); omega)
      subst this
      rw [single _ h (by simp)]
      simp
  | succ L ih =>
    intro cs h hl
    by_cases hm : [] ∈ cs
    · rw [single _ h hm]
      simp
    · rw [tails_sum L cs hm, pow_succ]
      have h0 := ih _ (tails_pairwise false h) (tails_len hl)
      have h1 := ih _ (tails_pairwise true h) (tails_len hl)
      omega

theorem pairwise_of_free {cs : List (List Bool)} (h : PrefixFree cs) :
    cs.Pairwise fun a b => ¬ a <+: b ∧ ¬ b <+: a := by
  rw [List.pairwise_iff_getElem]
  intro i j hi hj hij
  constructor
  · intro hp
    have := h i j _ _ (List.getElem?_eq_getElem hi) (List.getElem?_eq_getElem hj) hp
    omega
  · intro hp
    have := h j i _ _ (List.getElem?_eq_getElem hj) (List.getElem?_eq_getElem hi) hp
    omega

end Verif.Huff
