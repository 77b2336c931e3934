import Verif.Cpp.Store
/-
The C++ bit bucket: reading.
-/
namespace Verif.Cpp
open Verif Bits Bits.Spec

theorem byteBits_mod (x : Nat) : byteBits (x % 256) = byteBits x := by
  have : ∀ i, i < 8 → (x % 256).testBit i = x.testBit i := by
    intro i hi
    rw [show (256 : Nat) = 2 ^ 8 by rfl, Nat.testBit_mod_two_pow]
    simp [hi]
  simp [-Nat.testBit_zero, byteBits_eq, this]

theorem byteBits_fetchC (a c o : Nat) (ho : o < 8) (hc : c < 256) :
    byteBits (((a <<< o) ||| (c >>> (8 - o))) % 256) = (byteBits a).drop o ++ (byteBits c).take o := by
  rw [byteBits_mod]
  have hh : ∀ i, 8 ≤ i → c.testBit i = false := fun i hi => testBit_hi hc hi
  interval_cases o <;>
  simp [-Nat.reduceShiftRight, -Nat.testBit_zero, byteBits_eq, Nat.testBit_or, Nat.testBit_shiftRight, Nat.testBit_shiftLeft, hh]

theorem byteBits_first (a o k : Nat) (hk : o + k ≤ 8) :
    byteBits (0 ||| (clear (255 >>> k) (a <<< o) >>> 0)) =
      ((byteBits a).drop o).take k ++ List.replicate (8 - k) false := by
  rw [Nat.zero_or, Nat.shiftRight_zero, byteBits_clear _ _ (by omega)]
  congr 1
  have : o < 9 := by omega
  interval_cases o <;> (have : k < 9 := by omega) <;> interval_cases k <;>
  simp_all [-Nat.testBit_zero, byteBits_eq, Nat.testBit_shiftLeft]

theorem byteBits_next (x b L p k : Nat) (hL : 0 < L) (hk : L + p + k < 8) (hb : b < 256)
    (h : (byteBits x).drop L = (byteBits b).take p ++ List.replicate (8 - L - p) false) :
    byteBits (x ||| (clear (255 >>> k) (b <<< p) >>> (L + p))) =
      (byteBits x).take L ++ (byteBits b).take (p + k) ++ List.replicate (8 - L - p - k) false := by
  have hh : ∀ i, 8 ≤ i → b.testBit i = false := fun i hi => testBit_hi hb hi
  have : L < 8 := by omega
  interval_cases L <;> (have : p < 8 := by omega) <;> interval_cases p <;> first | omega | skip
  all_goals (have : k < 8 := by omega)
  all_goals interval_cases k <;> first | omega | skip
  all_goals simp only [byteBits_eq, List.drop_succ_cons, List.drop_zero, List.replicate, List.cons.injEq, and_true,
    Nat.reduceSub, List.take_succ_cons, List.take_zero, List.nil_append, List.cons_append] at h
  all_goals simp [-Nat.reduceShiftRight, -Nat.testBit_zero, byteBits_eq, h, hh, testBit_clear, Nat.testBit_or, Nat.testBit_shiftRight,
    Nat.testBit_shiftLeft, testBit_255, List.replicate]

theorem byteAt_ok {l : List Nat} {i : Nat} (h : i < l.length) : byteAt l i = .ok l[i] := by simp [byteAt, h]

theorem bits_at (out : List Nat) (i o : Nat) (hi : i < out.length) (ho : o < 8) :
    (bitsOf out).drop (8 * i + o) = (byteBits out[i]).drop o ++ bitsOf (out.drop (i + 1)) := by
  rw [← List.drop_drop, drop_bits, drop_cons_of hi, bitsOf_cons, List.drop_append_of_le_length (by simp; omega)]

theorem getWhole_spec (out : List Nat) (hb : ∀ x ∈ out, x < 256) (o : Nat) (ho : 0 < o) (ho' : o < 8) (n : Nat) :
    ∀ (i : Nat) (ret : List Nat), 8 * i + o + 8 * n ≤ 8 * out.length →
    ∃ r, getWhole out o n i ret = .ok (i + n, ret ++ r) ∧ (∀ x ∈ r, x < 256) ∧
      bitsOf r = ((bitsOf out).drop (8 * i + o)).take (8 * n) := by
  induction n with
  | zero => intro i ret _; exact ⟨[], by simp [getWhole], by simp, by simp⟩
  | succ n ih =>
    intro i ret h
    have hi : i < out.length := by omega
    have hi1 : i + 1 < out.length := by omega
    have hc : out[i + 1] < 256 := hb _ (List.getElem_mem hi1)
    obtain ⟨r, he, hr, hrb⟩ := ih (i + 1) (ret ++ [((out[i] <<< o) ||| (out[i + 1] >>> (8 - o))) % 256]) (by omega)
    refine ⟨(((out[i] <<< o) ||| (out[i + 1] >>> (8 - o))) % 256) :: r, ?_, ?_, ?_⟩
    · simp only [getWhole, byteAt_ok hi, byteAt_ok hi1, bind, Except.bind, he]
      simp only [List.append_assoc, List.singleton_append, Except.ok.injEq, Prod.mk.injEq, and_true]
      omega
    · intro x hx
      rcases List.mem_cons.1 hx with rfl | hx
      · exact Nat.mod_lt _ (by decide)
      · exact hr x hx
    · rw [bitsOf_cons, byteBits_fetchC _ _ _ ho' hc, hrb, bits_at out i o hi ho', bits_at out (i + 1) o hi1 ho']
      rw [drop_cons_of hi1, bitsOf_cons]
      have e := take_app (l := (byteBits out[i]).drop o ++ (byteBits out[i + 1]).take o)
        (m := (byteBits out[i + 1]).drop o ++ bitsOf (out.drop (i + 1 + 1))) (n := 8) (k := 8 * n) (by simp; omega)
      rw [show 8 * (n + 1) = 8 + 8 * n by omega, ← e]
      congr 1
      simp only [List.append_assoc]
      rw [← List.append_assoc (List.take o _), List.take_append_drop]

/-- The rounds in the second byte. -/
theorem getPart_second (out : List Nat) (i : Nat) (hi : i < out.length) (hb : out[i] < 256) (L : Nat) (hL : 0 < L)
    (fuel : Nat) : ∀ (p m cur : Nat), L + p + m < 8 → 0 < m → m ≤ fuel →
    (byteBits cur).drop L = (byteBits out[i]).take p ++ List.replicate (8 - L - p) false →
    ∃ c, getPart out L fuel i p m cur (L + p) = .ok (i, p + m, c) ∧ c < 256 ∧
      byteBits c = (byteBits cur).take L ++ (byteBits out[i]).take (p + m) ++ List.replicate (8 - L - p - m) false := by
  induction fuel with
  | zero => intros; omega
  | succ fuel ih =>
    intro p m cur hlt hm hf hcur
    have hk : ∃ k, min (min (8 - (L + p)) L) m = k ∧ 0 < k ∧ k ≤ m := ⟨_, rfl, by omega, by omega⟩
    obtain ⟨k, hk, hk0, hkm⟩ := hk
    have hnext := byteBits_next cur out[i] L p k hL (by omega) hb hcur
    simp only [getPart, byteAt_ok hi, bind, Except.bind, hk]
    rw [if_neg (show ¬ L + p + k ≥ 8 by omega), if_neg (show ¬ p + k ≥ 8 by omega), if_neg (show ¬ p + k ≥ 8 by omega)]
    generalize hcur' : cur ||| (clear (255 >>> k) (out[i] <<< p) >>> (L + p)) = cur' at *
    have htake : (byteBits cur').take L = (byteBits cur).take L := by
      rw [hnext, List.append_assoc, List.take_left' (by simp; omega)]
    by_cases hm0 : m - k = 0
    · rw [if_pos hm0]
      have : m = k := by omega
      subst this
      exact ⟨cur' % 256, rfl, Nat.mod_lt _ (by decide), by rw [byteBits_mod, hnext]⟩
    · rw [if_neg hm0]
      obtain ⟨c, he, hc, hcb⟩ := ih (p + k) (m - k) cur' (by omega) (by omega) (by omega) (by
        rw [hnext, List.append_assoc, List.drop_left' (by simp; omega)]
        congr 2
        omega)
      refine ⟨c, ?_, hc, ?_⟩
      · rw [Nat.add_assoc L p k, he]
        congr 3
        omega
      · rw [hcb, htake, show p + k + (m - k) = p + m by omega,
          show 8 - L - (p + k) - (m - k) = 8 - L - p - m by omega]

theorem getPart_spec (out : List Nat) (hb : ∀ x ∈ out, x < 256) (i o n : Nat)
    (ho : 0 < o) (ho' : o < 8) (hn : 0 < n) (hn' : n < 8) (hav : 8 * i + o + n ≤ 8 * out.length) :
    ∃ i' o' c, getPart out (8 - o) 8 i o n 0 0 = .ok (i', o', c) ∧ 8 * i' + o' = 8 * i + o + n ∧ o' < 8 ∧ c < 256 ∧
      byteBits c = ((bitsOf out).drop (8 * i + o)).take n ++ List.replicate (8 - n) false := by
  have hi : i < out.length := by omega
  rw [bits_at out i o hi ho']
  by_cases hle : n ≤ 8 - o
  · have hk : min (min (8 - 0) (8 - o)) n = n := by omega
    refine ⟨if o + n ≥ 8 then i + 1 else i, if o + n ≥ 8 then o + n - 8 else o + n,
      (0 ||| (clear (255 >>> n) (out[i] <<< o) >>> 0)) % 256, ?_, by split <;> omega, by split <;> omega,
      Nat.mod_lt _ (by decide), ?_⟩
    · rw [getPart]
      simp only [byteAt_ok hi, bind, Except.bind, hk, Nat.zero_add]
      rw [if_neg (show ¬ n ≥ 8 by omega), if_pos (by omega)]
    · rw [byteBits_mod, byteBits_first _ _ _ (by omega), List.take_append_of_le_length (by simp; omega)]
  · have hk : min (min (8 - 0) (8 - o)) n = 8 - o := by omega
    have hi1 : i + 1 < out.length := by omega
    have hf := byteBits_first out[i] o (8 - o) (by omega)
    generalize hcur : 0 ||| (clear (255 >>> (8 - o)) (out[i] <<< o) >>> 0) = cur at hf
    obtain ⟨c, he, hc, hcb⟩ := getPart_second out (i + 1) hi1 (hb _ (List.getElem_mem hi1)) (8 - o) (by omega) 7 0
      (n - (8 - o)) cur (by omega) (by omega) (by omega) (by
        rw [hf, List.drop_left' (by simp)]
        simp)
    refine ⟨i + 1, n - (8 - o), c, ?_, by omega, by omega, hc, ?_⟩
    · rw [getPart]
      simp only [byteAt_ok hi, bind, Except.bind, hk, Nat.zero_add, hcur]
      rw [if_neg (show ¬ 8 - o ≥ 8 by omega), if_neg (by omega), if_pos (by omega), if_pos (by omega)]
      rw [Nat.add_zero, Nat.zero_add] at he
      rw [show o + (8 - o) - 8 = 0 by omega]
      exact he
    · rw [hcb, hf, List.take_left' (by simp), List.take_of_length_le (l := (byteBits out[i]).drop o) (by simp)]
      rw [drop_cons_of hi1, bitsOf_cons]
      have e := take_app (l := (byteBits out[i]).drop o) (m := byteBits out[i + 1] ++ bitsOf (out.drop (i + 1 + 1)))
        (n := 8 - o) (k := n - (8 - o)) (by simp)
      rw [show 8 - o + (n - (8 - o)) = n by omega] at e
      rw [e, List.take_append_of_le_length (by rw [byteBits_length]; omega)]
      congr 2
      · rw [Nat.zero_add]
      · omega

theorem holdsC_getBits {b : BB} {t : Tape} (h : HoldsC b t) (ret : List Nat) (n : Nat) (hle : t.pos + n ≤ t.bits.length) :
    ∃ b', getBits b ret n = .ok (b', ret ++ pack ((t.bits.drop t.pos).take n)) ∧ HoldsC b' { t with pos := t.pos + n } := by
  have hpos := h.pos
  have hlt := h.lt
  have hlen := h.length
  have hnum := h.num
  have hwin : ((bitsOf b.bsa).drop t.pos).take n = (t.bits.drop t.pos).take n := by
    rw [h.content, List.drop_append_of_le_length (by omega), List.take_append_of_le_length (by simp; omega)]
  have hwl : ((t.bits.drop t.pos).take n).length = n := by simp; omega
  have key : ∀ r, (∀ x ∈ r, x < 256) → bitsOf r = ((bitsOf b.bsa).drop t.pos).take n ++ padZeros n →
      r = pack ((t.bits.drop t.pos).take n) := by
    intro r hr hrb
    apply pack_unique _ _ hr
    rw [hwl, hrb, hwin]
  suffices hs : ∃ i o r, getBits b ret n = .ok ({ b with idxByte := i, idxBoff := o }, ret ++ r) ∧ o < 8 ∧
      8 * i + o = t.pos + n ∧ (∀ x ∈ r, x < 256) ∧ bitsOf r = ((bitsOf b.bsa).drop t.pos).take n ++ padZeros n by
    obtain ⟨i, o, r, he, ho, hp, hr, hrb⟩ := hs
    rw [key r hr hrb] at he
    exact ⟨_, he, ⟨h.bytes, h.boff, h.content, hnum, hp.symm, ho⟩⟩
  unfold getBits
  simp only [if_neg (show ¬ n > b.numBits by omega)]
  by_cases h0 : b.idxBoff = 0
  · simp only [h0, if_true]
    rw [if_neg (by omega)]
    have hpos' : t.pos = 8 * b.idxByte := by omega
    by_cases hm : n % 8 = 0
    · simp only [hm, ne_eq, not_true_eq_false, if_false, pure, Except.pure, bind, Except.bind]
      rw [if_neg (by omega)]
      refine ⟨b.idxByte + n / 8, 0, _, rfl, by omega, by omega, ?_, ?_⟩
      · intro x hx
        exact h.bytes x (List.drop_subset _ _ (List.take_subset _ _ hx))
      · have e1 : padZeros n = [] := by simp [padZeros, hm]
        rw [e1, List.append_nil, hpos', drop_bits]
        have h1 := List.take_append_drop ((n + 7) / 8) (b.bsa.drop b.idxByte)
        conv_rhs => rw [← h1, bitsOf_append]
        rw [List.take_left']
        simp only [bitsOf_length, List.length_take, List.length_drop]
        omega
    · have hm' : n % 8 ≠ 0 := hm
      set w := (b.bsa.drop b.idxByte).take ((n + 7) / 8) with hw
      have hwlen : w.length = (n + 7) / 8 := by
        simp only [hw, List.length_take, List.length_drop]
        omega
      have hwne : w ≠ [] := by
        intro hc
        rw [hc] at hwlen
        simp at hwlen
        omega
      obtain ⟨p, x, hpx⟩ := exists_snoc hwne
      rw [hpx] at hwlen
      simp only [List.length_append, List.length_singleton] at hwlen
      have hwb : ∀ y ∈ w, y < 256 := fun y hy => h.bytes y (List.drop_subset _ _ (List.take_subset _ _ hy))
      rw [hpx, ← List.append_assoc]
      simp only [hm', ne_eq, not_false_eq_true, if_true, pure, Except.pure, bind, Except.bind, onLast_append]
      rw [if_neg (by omega)]
      refine ⟨b.idxByte + n / 8, n % 8, p ++ [clear (255 >>> (n % 8)) x], by rw [List.append_assoc], by omega, by omega, ?_, ?_⟩
      · intro y hy
        simp only [List.mem_append, List.mem_singleton] at hy
        rcases hy with hy | hy
        · exact hwb y (by rw [hpx]; simp [hy])
        · rw [hy]; exact clear_lt (hwb x (by rw [hpx]; simp))
      · have e1 : padZeros n = List.replicate (8 - n % 8) false := by
          unfold padZeros
          congr 1
          omega
        rw [bitsOf_append, bitsOf_cons, bitsOf_nil, List.append_nil, byteBits_clear _ _ (by omega), e1, hpos', drop_bits,
          ← List.append_assoc]
        congr 1
        have h1 := List.take_append_drop ((n + 7) / 8) (b.bsa.drop b.idxByte)
        rw [← hw, hpx] at h1
        rw [← h1]
        simp only [bitsOf_append, bitsOf_cons, bitsOf_nil, List.append_nil, List.append_assoc]
        have e := take_app (l := bitsOf p) (m := byteBits x ++ bitsOf ((b.bsa.drop b.idxByte).drop ((n + 7) / 8)))
          (n := 8 * p.length) (k := n % 8) (by simp)
        rw [show 8 * p.length + n % 8 = n by omega] at e
        rw [e, List.take_append_of_le_length (by rw [byteBits_length]; omega)]
  · simp only [h0, if_false]
    obtain ⟨r, he, hr, hrb⟩ := getWhole_spec b.bsa h.bytes b.idxBoff (by omega) hlt (n / 8) b.idxByte ret (by omega)
    rw [← hpos] at hrb
    simp only [he, bind, Except.bind]
    by_cases hm : n % 8 = 0
    · simp only [hm, ne_eq, not_true_eq_false, if_false, pure, Except.pure]
      rw [if_neg (by omega)]
      refine ⟨_, b.idxBoff, r, rfl, hlt, by omega, hr, ?_⟩
      rw [hrb, show 8 * (n / 8) = n by omega]
      simp [padZeros, hm]
    · obtain ⟨i', o', c, he2, hp2, ho2, hc2, hcb⟩ := getPart_spec b.bsa h.bytes (b.idxByte + n / 8) b.idxBoff (n % 8)
        (by omega) hlt (by omega) (by omega) (by omega)
      simp only [hm, ne_eq, not_false_eq_true, if_true, he2, pure, Except.pure]
      rw [if_neg (by omega)]
      refine ⟨i', o', r ++ [c], by rw [List.append_assoc], ho2, by omega, ?_, ?_⟩
      · intro y hy
        simp only [List.mem_append, List.mem_singleton] at hy
        rcases hy with hy | hy
        · exact hr y hy
        · rw [hy]; exact hc2
      · have e1 : padZeros n = List.replicate (8 - n % 8) false := by
          unfold padZeros
          congr 1
          omega
        rw [bitsOf_append, bitsOf_cons, bitsOf_nil, List.append_nil, hrb, hcb, e1, ← List.append_assoc]
        congr 1
        rw [show 8 * (b.idxByte + n / 8) + b.idxBoff = t.pos + 8 * (n / 8) by omega, ← List.drop_drop,
          ← List.take_add]
        congr 1
        omega

end Verif.Cpp
