import Verif.Huff.TreeLemmas
import Verif.Bits.Run
import Mathlib.Data.List.Nodup
/-
The canonical codes: prefix-free, complete, and of the lengths asked for.
-/
namespace Verif.Huff
open Verif Verif.Bits Verif.Bits.Spec

theorem binary_eq (w v : Nat) (hw : 0 < w) (hv : v < 2 ^ w) : binary w v = natBits w v := by
  have h : Nat.log2 v + 1 ≤ w := by
    by_cases h0 : v = 0
    · subst h0
      have : Nat.log2 0 = 0 := by decide
      omega
    · exact (Nat.log2_lt h0).2 hv
  unfold binary natBits
  rw [max_eq_left h]

theorem brepLoop_eq (fuel : Nat) : ∀ s : List Bool, s.length ≤ fuel → brepLoop fuel s = pack s := by
  induction fuel with
  | zero =>
    intro s h
    have : s = [] := List.length_eq_zero_iff.1 (by omega)
    subst this
    simp [brepLoop, pack]
  | succ fuel ih =>
    intro s h
    unfold brepLoop
    split
    · rename_i h8
      rw [ih _ (by simp; omega)]
      conv_rhs => rw [← List.take_append_drop 8 s]
      rw [pack_chunk _ _ (by simp; omega)]
      rfl
    · split
      · rename_i h8 h0
        rw [pack_small s (by rintro rfl; simp at h0) (by omega)]
        rfl
      · rename_i h8 h0
        have : s = [] := List.length_eq_zero_iff.1 (by omega)
        subst this
        simp [pack]

theorem brep_eq (s : List Bool) (h : s ≠ []) : binaryStringToBrep s = .ok (pack s, s.length) := by
  unfold binaryStringToBrep
  rw [if_neg (by simpa using h), brepLoop_eq _ _ le_rfl]

/-- Canonical codes for (length, symbol) pairs, the next free code of length `prev` being `next`. -/
def assign : Nat → Nat → List (Nat × Nat) → List (Nat × List Bool)
  | _, _, [] => []
  | next, prev, (len, sym) :: L =>
    (sym, natBits len (next * 2 ^ (len - prev))) :: assign (next * 2 ^ (len - prev) + 1) len L

/-- The lengths are increasing, positive and exactly use up the free part of the code space. -/
structure Fits (H next prev : Nat) (L : List (Nat × Nat)) : Prop where
  sorted : L.Pairwise fun a b => a.1 ≤ b.1
  lo : ∀ p ∈ L, prev ≤ p.1
  hi : ∀ p ∈ L, p.1 ≤ H
  pos : ∀ p ∈ L, 0 < p.1
  prevH : prev ≤ H
  sum : next * 2 ^ (H - prev) + (L.map fun p => 2 ^ (H - p.1)).sum = 2 ^ H

theorem Fits.tail {H next prev len sym : Nat} {L : List (Nat × Nat)} (h : Fits H next prev ((len, sym) :: L)) :
    Fits H (next * 2 ^ (len - prev) + 1) len L := by
  have hlo := h.lo (len, sym) (by simp)
  have hhi := h.hi (len, sym) (by simp)
  simp only at hlo hhi
  refine ⟨(List.pairwise_cons.1 h.sorted).2, fun p hp => (List.pairwise_cons.1 h.sorted).1 p hp,
    fun p hp => h.hi p (by simp [hp]), fun p hp => h.pos p (by simp [hp]), hhi, ?_⟩
  have hs := h.sum
  simp only [List.map_cons, List.sum_cons] at hs
  rw [← hs, Nat.add_mul, Nat.mul_assoc, ← pow_add, show len - prev + (H - len) = H - prev by omega]
  omega

theorem Fits.lt {H next prev len sym : Nat} {L : List (Nat × Nat)} (h : Fits H next prev ((len, sym) :: L)) :
    next * 2 ^ (len - prev) < 2 ^ len := by
  have hs := h.tail.sum
  have hhi := h.hi (len, sym) (by simp)
  simp only at hhi
  have h2 : (next * 2 ^ (len - prev) + 1) * 2 ^ (H - len) ≤ 2 ^ len * 2 ^ (H - len) := by
    rw [← pow_add, show len + (H - len) = H by omega]
    omega
  have := Nat.le_of_mul_le_mul_right h2 (Nat.two_pow_pos _)
  omega

theorem assign_syms (next prev : Nat) (L : List (Nat × Nat)) : (assign next prev L).map (·.1) = L.map (·.2) := by
  induction L generalizing next prev with
  | nil => rfl
  | cons p L ih => obtain ⟨len, sym⟩ := p; simp [assign, ih]

theorem assign_len (next prev : Nat) (L : List (Nat × Nat)) :
    (assign next prev L).map (fun p => (p.2.length, p.1)) = L := by
  induction L generalizing next prev with
  | nil => rfl
  | cons p L ih => obtain ⟨len, sym⟩ := p; simp [assign, ih]

theorem toNat_take (x : List Bool) (n : Nat) (h : n ≤ x.length) : toNat (x.take n) = toNat x / 2 ^ (x.length - n) := by
  conv_rhs => rw [← List.take_append_drop n x]
  rw [toNat_append]
  have h1 := toNat_lt (x.drop n)
  rw [List.length_append, List.length_drop, List.length_take, min_eq_left h, show n + (x.length - n) - n = x.length - n by omega]
  rw [List.length_drop] at h1
  rw [Nat.mul_comm, Nat.mul_add_div (Nat.two_pow_pos _), Nat.div_eq_of_lt h1, Nat.add_zero]

/-- Later codes lie behind the codes given out before. -/
theorem assign_ge {H : Nat} (L : List (Nat × Nat)) : ∀ {next prev : Nat}, Fits H next prev L →
    ∀ p ∈ assign next prev L, prev ≤ p.2.length ∧ next ≤ toNat (p.2.take prev) := by
  induction L with
  | nil => intro next prev _ p hp; simp [assign] at hp
  | cons q L ih =>
    obtain ⟨len, sym⟩ := q
    intro next prev h p hp
    have hlo := h.lo (len, sym) (by simp)
    simp only at hlo
    simp only [assign, List.mem_cons] at hp
    rcases hp with rfl | hp
    · simp only [natBits_length]
      refine ⟨hlo, ?_⟩
      rw [toNat_take _ _ (by simpa using hlo), toNat_natBits, Nat.mod_eq_of_lt h.lt, natBits_length,
        Nat.mul_div_cancel _ (Nat.two_pow_pos _)]
    · obtain ⟨h1, h2⟩ := ih h.tail p hp
      refine ⟨by omega, ?_⟩
      have e : p.2.take prev = (p.2.take len).take prev := by rw [List.take_take, min_eq_left hlo]
      have hl : (p.2.take len).length = len := by simp [h1]
      rw [e, toNat_take _ _ (by omega), hl, Nat.le_div_iff_mul_le (Nat.two_pow_pos _)]
      omega

theorem assign_ne {H : Nat} (L : List (Nat × Nat)) : ∀ {next prev : Nat}, Fits H next prev L →
    (assign next prev L).Pairwise fun a b => ¬ a.2 <+: b.2 ∧ ¬ b.2 <+: a.2 := by
  induction L with
  | nil => intro next prev _; simp [assign]
  | cons q L ih =>
    obtain ⟨len, sym⟩ := q
    intro next prev h
    simp only [assign]
    rw [List.pairwise_cons]
    refine ⟨fun p hp => ?_, ih h.tail⟩
    obtain ⟨h1, h2⟩ := assign_ge L h.tail p hp
    have key : p.2.take len ≠ natBits len (next * 2 ^ (len - prev)) := by
      intro e
      rw [e, toNat_natBits, Nat.mod_eq_of_lt h.lt] at h2
      omega
    simp only
    constructor
    · intro hpre
      apply key
      have := List.prefix_iff_eq_take.1 hpre
      rw [natBits_length] at this
      exact this.symm
    · intro hpre
      have hl := hpre.length_le
      rw [natBits_length] at hl
      have e : p.2 = natBits len (next * 2 ^ (len - prev)) := hpre.eq_of_length (by rw [natBits_length]; omega)
      apply key
      rw [← e, List.take_of_length_le (by omega)]

/-- Every string behind the codes given out before begins with one of the codes. -/
theorem assign_complete {H : Nat} (L : List (Nat × Nat)) : ∀ {next prev : Nat}, Fits H next prev L →
    ∀ x : List Bool, x.length = H → next * 2 ^ (H - prev) ≤ toNat x →
    ∃ p ∈ assign next prev L, p.2 <+: x := by
  induction L with
  | nil =>
    intro next prev h x hx hn
    exfalso
    have := h.sum
    simp only [List.map_nil, List.sum_nil, Nat.add_zero] at this
    have h2 := toNat_lt x
    rw [hx] at h2
    omega
  | cons q L ih =>
    obtain ⟨len, sym⟩ := q
    intro next prev h x hx hn
    have hlo := h.lo (len, sym) (by simp)
    have hhi := h.hi (len, sym) (by simp)
    simp only at hlo hhi
    by_cases hc : (next * 2 ^ (len - prev) + 1) * 2 ^ (H - len) ≤ toNat x
    · obtain ⟨p, hp, hpre⟩ := ih h.tail x hx hc
      exact ⟨p, by simp [assign, hp], hpre⟩
    · refine ⟨(sym, natBits len (next * 2 ^ (len - prev))), by simp [assign], ?_⟩
      have e : toNat (x.take len) = next * 2 ^ (len - prev) := by
        rw [toNat_take _ _ (by omega), hx]
        have h1 : next * 2 ^ (len - prev) * 2 ^ (H - len) = next * 2 ^ (H - prev) := by
          rw [Nat.mul_assoc, ← pow_add, show len - prev + (H - len) = H - prev by omega]
        have h2 : next * 2 ^ (len - prev) ≤ toNat x / 2 ^ (H - len) := by
          rw [Nat.le_div_iff_mul_le (Nat.two_pow_pos _)]; omega
        have h3 : toNat x / 2 ^ (H - len) < next * 2 ^ (len - prev) + 1 := by
          rw [Nat.div_lt_iff_lt_mul (Nat.two_pow_pos _)]; omega
        omega
      simp only
      rw [← e, natBits_toNat len _ (by simp; omega)]
      exact List.take_prefix _ _

/-! ### The loops -/

/-- All steps in one list. -/
def canonAll : List (Nat × Nat) → CanonSt → Py CanonSt
  | [], st => .ok st
  | (len, sym) :: L, st => do
    let st ← canonStep st len sym
    canonAll L st

theorem canonAll_append (L M : List (Nat × Nat)) (st : CanonSt) :
    canonAll (L ++ M) st = (canonAll L st).bind (canonAll M) := by
  induction L generalizing st with
  | nil => rfl
  | cons p L ih =>
    obtain ⟨len, sym⟩ := p
    simp only [List.cons_append, canonAll, bind]
    cases canonStep st len sym with
    | error e => rfl
    | ok st' => exact ih st'

theorem canonSyms_eq (len : Nat) (syms : List Nat) (st : CanonSt) :
    canonSyms len syms st = canonAll (syms.map fun s => (len, s)) st := by
  induction syms generalizing st with
  | nil => rfl
  | cons s syms ih =>
    simp only [canonSyms, List.map_cons, canonAll, bind]
    congr 1
    funext st'
    exact ih st'

/-- The (length, symbol) pairs in the order in which codes are assigned. -/
def order (gs : List (Nat × List Nat)) : List (Nat × Nat) :=
  gs.flatMap fun g => (sortBy (fun a b => decide (a ≤ b)) g.2).map fun s => (g.1, s)

theorem canonLoop_eq (gs : List (Nat × List Nat)) (st : CanonSt) : canonLoop gs st = canonAll (order gs) st := by
  induction gs generalizing st with
  | nil => rfl
  | cons g gs ih =>
    obtain ⟨len, syms⟩ := g
    simp only [canonLoop, order, List.flatMap_cons, canonAll_append, bind, canonSyms_eq]
    congr 1
    funext st'
    exact ih st'

theorem order_perm (gs : List (Nat × List Nat)) : (order gs).Perm (flat gs) := by
  induction gs with
  | nil => exact List.Perm.refl _
  | cons g gs ih =>
    simp only [order, flat, List.flatMap_cons] at ih ⊢
    exact ((sortBy_perm _ g.2).map _).append ih

theorem order_sorted (gs : List (Nat × List Nat)) (h : gs.Pairwise fun a b => a.1 < b.1) :
    (order gs).Pairwise fun a b => a.1 ≤ b.1 := by
  induction gs with
  | nil => simp [order]
  | cons g gs ih =>
    rw [List.pairwise_cons] at h
    simp only [order, List.flatMap_cons]
    rw [List.pairwise_append]
    refine ⟨?_, ih h.2, ?_⟩
    · rw [List.pairwise_map]
      exact List.pairwise_of_forall fun _ _ => le_rfl
    · intro a ha b hb
      simp only [List.mem_map, List.mem_flatMap] at ha hb
      obtain ⟨s, _, rfl⟩ := ha
      obtain ⟨g', hg', s', _, rfl⟩ := hb
      exact le_of_lt (h.1 g' hg')

theorem canonAll_spec {H : Nat} (L : List (Nat × Nat)) : ∀ {next prev : Nat} (st : CanonSt), Fits H next prev L →
    st.code + 1 = (next : Int) → st.prev = prev → (L.map (·.2)).Nodup → (∀ p ∈ L, st.table.get? p.2 = none) →
    ∃ st', canonAll L st = .ok st' ∧
      st'.table = st.table ++ (assign next prev L).map fun p => (p.1, (pack p.2, p.2.length)) := by
  induction L with
  | nil => intro next prev st _ _ _ _ _; exact ⟨st, rfl, by simp [assign]⟩
  | cons q L ih =>
    obtain ⟨len, sym⟩ := q
    intro next prev st h hc hp hnd hnew
    have hlo := h.lo (len, sym) (by simp)
    have hpos := h.pos (len, sym) (by simp)
    simp only at hlo hpos
    simp only [List.map_cons, List.nodup_cons, List.mem_map, not_exists, not_and] at hnd
    have hcode : ((st.code + 1) * 2 ^ (len - st.prev)).toNat = next * 2 ^ (len - prev) := by
      rw [hc, hp]
      have : ((next : Int) * 2 ^ (len - prev)) = ((next * 2 ^ (len - prev) : Nat) : Int) := by push_cast; rfl
      rw [this, Int.toNat_natCast]
    have hstep : canonStep st len sym = .ok
        { code := (st.code + 1) * 2 ^ (len - st.prev), prev := len,
          table := st.table ++ [(sym, (pack (natBits len (next * 2 ^ (len - prev))), len))] } := by
      unfold canonStep
      rw [if_neg (by omega)]
      simp only [hcode]
      rw [binary_eq _ _ hpos h.lt, brep_eq _ (by
        intro e
        have := congrArg List.length e
        simp only [natBits_length, List.length_nil] at this
        omega)]
      simp only [bind, Except.bind, pure, Except.pure, natBits_length]
      rw [Dict.set_new (Dict.get?_none.1 (hnew (len, sym) (by simp)))]
    obtain ⟨st', e, ht⟩ := ih (next := next * 2 ^ (len - prev) + 1) (prev := len)
      { code := (st.code + 1) * 2 ^ (len - st.prev), prev := len,
        table := st.table ++ [(sym, (pack (natBits len (next * 2 ^ (len - prev))), len))] }
      h.tail
      (by simp only [hc, hp]; push_cast; rfl) rfl hnd.2
      (by
        intro p hp
        rw [Dict.get?_none]
        intro hk
        have h1 := hnew p (by simp [hp])
        rw [Dict.get?_none] at h1
        simp only [Dict.keys, List.map_append, List.map_cons, List.map_nil, List.mem_append, List.mem_singleton] at hk h1
        rcases hk with hk | hk
        · exact h1 hk
        · exact hnd.1 p hp hk)
    refine ⟨st', ?_, ?_⟩
    · simp only [canonAll, bind, hstep]
      exact e
    · rw [ht]
      simp [assign]

/-- Lengths that go down are refused. -/
theorem canonAll_down (L : List (Nat × Nat)) : ∀ st : CanonSt, (∀ p ∈ L, 0 < p.1) →
    ((∀ p ∈ L, st.prev ≤ p.1) ∧ L.Pairwise fun a b => a.1 ≤ b.1) ∨ canonAll L st = .error .value := by
  induction L with
  | nil => intro st _; left; simp
  | cons q L ih =>
    obtain ⟨len, sym⟩ := q
    intro st hpos
    by_cases hlt : len < st.prev
    · right
      simp only [canonAll, canonStep, if_pos hlt, bind, Except.bind]
    · have hne : binary len ((st.code + 1) * 2 ^ (len - st.prev)).toNat ≠ [] := by
        intro e
        have := congrArg List.length e
        simp only [binary, List.length_map, List.length_range, List.length_nil] at this
        omega
      have hstep : canonStep st len sym = .ok
          { code := (st.code + 1) * 2 ^ (len - st.prev), prev := len,
            table := st.table.set sym (pack (binary len ((st.code + 1) * 2 ^ (len - st.prev)).toNat),
              (binary len ((st.code + 1) * 2 ^ (len - st.prev)).toNat).length) } := by
        unfold canonStep
        rw [if_neg hlt]
        simp only [brep_eq _ hne, bind, Except.bind, pure, Except.pure]
      rcases ih { code := (st.code + 1) * 2 ^ (len - st.prev), prev := len,
                  table := st.table.set sym (pack (binary len ((st.code + 1) * 2 ^ (len - st.prev)).toNat),
                    (binary len ((st.code + 1) * 2 ^ (len - st.prev)).toNat).length) }
          (fun p hp => hpos p (by simp [hp])) with ⟨h1, h2⟩ | h
      · left
        simp only at h1
        refine ⟨?_, List.pairwise_cons.2 ⟨fun p hp => h1 p hp, h2⟩⟩
        intro p hp
        rcases List.mem_cons.1 hp with rfl | hp
        · simp only; omega
        · have := h1 p hp; omega
      · right
        simp only [canonAll, bind, hstep, Except.bind]
        exact h

end Verif.Huff
