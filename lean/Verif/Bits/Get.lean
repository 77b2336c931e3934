import Verif.Bits.Store
import Mathlib.Tactic.Ring
/-
Reading: GetBits returns the next bits, packed.
-/
namespace Verif.Bits
open Verif Spec

theorem natBits_succ (w v : Nat) : natBits (w + 1) v = v.testBit w :: natBits w v := by
  unfold natBits
  rw [List.range_succ_eq_map]
  simp only [List.map_cons, List.map_map, Nat.add_sub_cancel, Nat.sub_zero, List.cons.injEq, true_and]
  apply List.map_congr_left
  intro i _
  simp only [Function.comp]
  congr 1
  omega

theorem toNat_foldl (l : List Bool) (n : Nat) :
    l.foldl (fun n b => 2 * n + b.toNat) n = n * 2 ^ l.length + toNat l := by
  induction l generalizing n with
  | nil => simp [toNat]
  | cons b l ih =>
    have h2 : toNat (b :: l) = List.foldl (fun n b => 2 * n + b.toNat) (2 * 0 + b.toNat) l := rfl
    rw [List.foldl_cons, ih, h2, ih, List.length_cons, pow_succ]
    ring

theorem toNat_cons (b : Bool) (l : List Bool) : toNat (b :: l) = b.toNat * 2 ^ l.length + toNat l := by
  have h2 : toNat (b :: l) = List.foldl (fun n b => 2 * n + b.toNat) (2 * 0 + b.toNat) l := rfl
  rw [h2, toNat_foldl]
  simp

theorem toNat_append (l m : List Bool) : toNat (l ++ m) = toNat l * 2 ^ m.length + toNat m := by
  unfold toNat
  rw [List.foldl_append, toNat_foldl]
  rfl

theorem toNat_natBits (w v : Nat) : toNat (natBits w v) = v % 2 ^ w := by
  induction w with
  | zero => simp [natBits, toNat, Nat.mod_one]
  | succ w ih =>
    rw [natBits_succ, toNat_cons, ih, natBits_length, Nat.toNat_testBit, Nat.mod_pow_succ]
    ring

theorem toNat_byteBits {v : Nat} (h : v < 256) : toNat (byteBits v) = v := by
  rw [byteBits, toNat_natBits]
  exact Nat.mod_eq_of_lt h

theorem padZeros_add8 (n : Nat) : padZeros (n + 8) = padZeros n := by
  unfold padZeros
  congr 1
  omega

/-- Packed bytes are determined by their bits. -/
theorem pack_unique (ret : List Nat) : ∀ (l : List Bool), (∀ x ∈ ret, x < 256) →
    bitsOf ret = l ++ padZeros l.length → ret = pack l := by
  induction ret with
  | nil =>
    intro l _ h
    have := congrArg List.length h
    simp only [bitsOf_nil, List.length_nil, List.length_append] at this
    have : l = [] := List.length_eq_zero_iff.1 (by omega)
    subst this
    simp [pack]
  | cons x ret ih =>
    intro l hb h
    have hx := hb x (by simp)
    have hlen := congrArg List.length h
    simp only [bitsOf_length, List.length_cons, List.length_append, padZeros, List.length_replicate] at hlen
    cases l with
    | nil => simp at hlen
    | cons b bs =>
      rw [pack]
      rw [bitsOf_cons] at h
      congr 1
      · by_cases h8 : (b :: bs).length < 8
        · have hr : ret = [] := List.length_eq_zero_iff.1 (by simp only [List.length_cons] at *; omega)
          subst hr
          simp only [bitsOf_nil, List.append_nil] at h
          rw [← toNat_byteBits hx, h]
          congr 1
          rw [List.take_append, List.take_of_length_le (by omega), List.take_replicate]
          congr 1
          unfold padZeros
          congr 1
          omega
        · rw [List.take_append_of_le_length (by omega)]
          have := congrArg (List.take 8) h
          rw [List.take_append_of_le_length (by simp), List.take_append_of_le_length (by omega),
            List.take_of_length_le (by simp)] at this
          rw [← this, toNat_byteBits hx]
      · apply ih _ (fun y hy => hb y (by simp [hy]))
        by_cases h8 : (b :: bs).length < 8
        · have hr : ret = [] := List.length_eq_zero_iff.1 (by simp only [List.length_cons] at *; omega)
          subst hr
          rw [List.drop_of_length_le (by simp only [List.length_cons] at h8; omega)]
          rfl
        · have := congrArg (List.drop 8) h
          rw [List.drop_append_of_le_length (by simp), List.drop_append_of_le_length (by omega),
            List.drop_of_length_le (by simp), List.nil_append, List.drop_succ_cons] at this
          rw [this]
          congr 1
          rw [show (b :: bs).length = (bs.drop 7).length + 8 by simp only [List.length_cons, List.length_drop] at *; omega]
          exact padZeros_add8 _

theorem drop_bits (out : List Nat) (i : Nat) : (bitsOf out).drop (8 * i) = bitsOf (out.drop i) := by
  induction out generalizing i with
  | nil => simp
  | cons b out ih =>
    cases i with
    | zero => simp
    | succ i =>
      rw [List.drop_succ_cons, ← ih, bitsOf_cons, List.drop_append]
      rw [List.drop_of_length_le (by simp)]
      simp only [byteBits_length, List.nil_append]
      congr 1

theorem drop_cons_of {out : List Nat} {i : Nat} (h : i < out.length) : out.drop i = out[i] :: out.drop (i + 1) :=
  List.drop_eq_getElem_cons h

theorem at?_ok {out : List Nat} {i : Nat} (h : i < out.length) : at? out i = .ok out[i] := by
  simp [at?, h]

theorem getLoop_done (out : List Nat) (fuel : Nat) (s : GetSt) (h : s.bitsLeft = 0) : getLoop out fuel s = .ok s := by
  cases fuel <;> simp [getLoop, h]

theorem getAligned_spec (out : List Nat) (n : Nat) : ∀ (i : Nat) (ret : List Nat), i + n ≤ out.length →
    getAligned out n i ret = .ok (i + n, ret ++ (out.drop i).take n) := by
  induction n with
  | zero => intro i ret _; simp [getAligned]
  | succ n ih =>
    intro i ret h
    have hi : i < out.length := by omega
    simp only [getAligned, at?_ok hi, bind, Except.bind]
    rw [ih _ _ (by omega), drop_cons_of hi]
    simp only [List.take_succ_cons, List.append_assoc, List.singleton_append, Except.ok.injEq, Prod.mk.injEq, and_true]
    omega

/-- Two steps of at most seven bits. -/
theorem getLoop_small (out : List Nat) (hb : ∀ x ∈ out, x < 256) (i o n fuel : Nat) (ret : List Nat)
    (ho : 0 < o) (ho' : o < 8) (hn : 0 < n) (hn' : n < 8) (hav : 8 * i + o + n ≤ 8 * out.length) (hf : n ≤ fuel) :
    ∃ s', getLoop out fuel { idxByte := i, idxBoff := o, bitsLeft := n, curByte := 0, curBoff := 0, ret := ret } = .ok s' ∧
      8 * s'.idxByte + s'.idxBoff = 8 * i + o + n ∧ s'.idxBoff < 8 ∧
      ∃ r, (if s'.curBoff ≠ 0 then s'.ret ++ [s'.curByte] else s'.ret) = ret ++ r ∧ (∀ x ∈ r, x < 256) ∧
        bitsOf r = ((bitsOf out).drop (8 * i + o)).take n ++ padZeros n := by
  have hi : i < out.length := by omega
  have hai : out[i] < 256 := hb _ (List.getElem_mem hi)
  obtain ⟨fuel, rfl⟩ : ∃ f, fuel = f + 1 := ⟨fuel - 1, by omega⟩
  have hdr : (bitsOf out).drop (8 * i + o) = (byteBits out[i]).drop o ++ bitsOf (out.drop (i + 1)) := by
    rw [← List.drop_drop, drop_bits, drop_cons_of hi, bitsOf_cons, List.drop_append_of_le_length (by simp; omega)]
  have hpz : padZeros n = List.replicate (8 - n) false := by
    unfold padZeros
    congr 1
    omega
  rw [getLoop]
  simp only [hn, if_true]
  by_cases hle : n ≤ 8 - o
  · have hk : min (min (8 - 0) (8 - o)) n = n := by omega
    have hgi : getIter out { idxByte := i, idxBoff := o, bitsLeft := n, curByte := 0, curBoff := 0, ret := ret } =
        .ok { idxByte := if o + n ≥ 8 then i + 1 else i, idxBoff := if o + n ≥ 8 then o + n - 8 else o + n,
              bitsLeft := 0, curByte := 0 ||| (clear (255 >>> n) ((out[i] <<< o) &&& 255) >>> 0),
              curBoff := n, ret := ret } := by
      unfold getIter
      rw [if_neg (by simp; omega)]
      simp only [hk, at?_ok hi, bind, Except.bind, Nat.sub_self, Nat.zero_add]
      rw [if_neg (show ¬ n ≥ 8 by omega)]
      by_cases h8 : o + n ≥ 8
      · simp only [h8, if_true]
        rw [if_neg (by omega)]
        rfl
      · simp only [h8, if_false]
        rfl
    rw [hgi]
    refine ⟨_, getLoop_done _ _ _ rfl, ?_, ?_, [0 ||| (clear (255 >>> n) ((out[i] <<< o) &&& 255) >>> 0)], ?_, ?_, ?_⟩
    · simp only
      split <;> omega
    · simp only
      split <;> omega
    · simp only
      rw [if_pos (by omega)]
    · intro x hx
      rw [List.mem_singleton.1 hx]
      exact or_lt (by decide) (shr_lt (clear_lt (and_lt _)))
    · rw [bitsOf_cons, bitsOf_nil, List.append_nil, byteBits_part _ _ _ ho (by omega), hdr, hpz]
      rw [List.take_append_of_le_length (by simp; omega)]
  · have hk : min (min (8 - 0) (8 - o)) n = 8 - o := by omega
    have hi1 : i + 1 < out.length := by omega
    have hgi : getIter out { idxByte := i, idxBoff := o, bitsLeft := n, curByte := 0, curBoff := 0, ret := ret } =
        .ok { idxByte := i + 1, idxBoff := 0,
              bitsLeft := n - (8 - o), curByte := 0 ||| (clear (255 >>> (8 - o)) ((out[i] <<< o) &&& 255) >>> 0),
              curBoff := 8 - o, ret := ret } := by
      unfold getIter
      rw [if_neg (by simp; omega)]
      simp only [hk, at?_ok hi, bind, Except.bind, Nat.zero_add]
      rw [if_neg (show ¬ 8 - o ≥ 8 by omega)]
      have h8 : o + (8 - o) = 8 := by omega
      simp only [h8, ge_iff_le, le_refl, if_true, Nat.sub_self]
      rw [if_neg (by omega)]
      rfl
    rw [hgi]
    set x1 := 0 ||| (clear (255 >>> (8 - o)) ((out[i] <<< o) &&& 255) >>> 0) with hx1
    have hx1b : byteBits x1 = (byteBits out[i]).drop o ++ List.replicate o false := by
      rw [hx1, byteBits_part _ _ _ ho (by omega), List.take_of_length_le (by simp)]
      congr 2
      omega
    simp only [bind, Except.bind]
    obtain ⟨fuel, rfl⟩ : ∃ f, fuel = f + 1 := ⟨fuel - 1, by omega⟩
    rw [getLoop]
    simp only [show n - (8 - o) > 0 by omega, if_true]
    have hk2 : min (min (8 - (8 - o)) (8 - 0)) (n - (8 - o)) = n - (8 - o) := by omega
    have hgi2 : getIter out { idxByte := i + 1, idxBoff := 0, bitsLeft := n - (8 - o), curByte := x1, curBoff := 8 - o, ret := ret } =
        .ok { idxByte := i + 1, idxBoff := n - (8 - o), bitsLeft := 0,
              curByte := x1 ||| (clear (255 >>> (n - (8 - o))) ((out[i + 1] <<< 0) &&& 255) >>> (8 - o)),
              curBoff := n, ret := ret } := by
      unfold getIter
      rw [if_neg (by simp; omega)]
      simp only [hk2, at?_ok hi1, bind, Except.bind, Nat.sub_self, Nat.zero_add]
      have h9 : 8 - o + (n - (8 - o)) = n := by omega
      simp only [h9]
      rw [if_neg (show ¬ n ≥ 8 by omega), if_neg (show ¬ n - (8 - o) ≥ 8 by omega)]
      rfl
    rw [hgi2]
    refine ⟨_, getLoop_done _ _ _ rfl, ?_, ?_, [x1 ||| (clear (255 >>> (n - (8 - o))) ((out[i + 1] <<< 0) &&& 255) >>> (8 - o))], ?_, ?_, ?_⟩
    · simp only
      omega
    · simp only
      omega
    · simp only
      rw [if_pos (by omega)]
    · intro x hx
      rw [List.mem_singleton.1 hx]
      exact or_lt (or_lt (by decide) (shr_lt (clear_lt (and_lt _)))) (shr_lt (clear_lt (and_lt _)))
    · rw [bitsOf_cons, bitsOf_nil, List.append_nil, byteBits_part2 _ _ _ _ (by omega) (by
          rw [hx1b, List.drop_left' (by simp)]; congr 1; omega), hdr, hpz, hx1b]
      rw [List.take_left' (by simp), drop_cons_of hi1, bitsOf_cons]
      have e := take_app (l := (byteBits out[i]).drop o) (m := byteBits out[i + 1] ++ bitsOf (out.drop (i + 1 + 1)))
        (n := 8 - o) (k := n - (8 - o)) (by simp)
      rw [show 8 - o + (n - (8 - o)) = n by omega] at e
      rw [e, List.take_append_of_le_length (by rw [byteBits_length]; omega)]
      congr 2
      omega

theorem getLoop_spec (out : List Nat) (hb : ∀ x ∈ out, x < 256) (o : Nat) (ho : 0 < o) (ho' : o < 8) (fuel : Nat) :
    ∀ (i n : Nat) (ret : List Nat), 8 * i + o + n ≤ 8 * out.length → n ≤ fuel →
    ∃ s', getLoop out fuel { idxByte := i, idxBoff := o, bitsLeft := n, curByte := 0, curBoff := 0, ret := ret } = .ok s' ∧
      8 * s'.idxByte + s'.idxBoff = 8 * i + o + n ∧ s'.idxBoff < 8 ∧
      ∃ r, (if s'.curBoff ≠ 0 then s'.ret ++ [s'.curByte] else s'.ret) = ret ++ r ∧ (∀ x ∈ r, x < 256) ∧
        bitsOf r = ((bitsOf out).drop (8 * i + o)).take n ++ padZeros n := by
  induction fuel with
  | zero =>
    intro i n ret hav hf
    have hn : n = 0 := by omega
    subst hn
    exact ⟨_, rfl, rfl, ho', [], by simp, by simp, by simp [padZeros]⟩
  | succ fuel ih =>
    intro i n ret hav hf
    by_cases hn : n = 0
    · subst hn
      exact ⟨_, rfl, rfl, ho', [], by simp, by simp, by simp [padZeros]⟩
    by_cases h8 : n < 8
    · exact getLoop_small out hb i o n (fuel + 1) ret ho ho' (by omega) h8 hav hf
    have hi : i < out.length := by omega
    have hi1 : i + 1 < out.length := by omega
    rw [getLoop]
    have hgi : getIter out { idxByte := i, idxBoff := o, bitsLeft := n, curByte := 0, curBoff := 0, ret := ret } =
        .ok { idxByte := i + 1, idxBoff := o, bitsLeft := n - 8, curByte := 0, curBoff := 0,
              ret := ret ++ [(255 &&& (out[i] <<< o)) ||| (out[i + 1] >>> (8 - o))] } := by
      unfold getIter
      rw [if_pos ⟨by simp; omega, hi⟩]
      simp only [at?_ok hi, at?_ok hi1, bind, Except.bind]
      rfl
    simp only [hgi, show n > 0 by omega, if_true, bind, Except.bind]
    obtain ⟨s', he, hpos, hlt, r, hr, hrb, hrc⟩ := ih (i + 1) (n - 8)
      (ret ++ [(255 &&& (out[i] <<< o)) ||| (out[i + 1] >>> (8 - o))]) (by omega) (by omega)
    have hb1 : out[i + 1] < 256 := hb _ (List.getElem_mem hi1)
    refine ⟨s', he, by omega, hlt, ((255 &&& (out[i] <<< o)) ||| (out[i + 1] >>> (8 - o))) :: r, by rw [hr]; simp, ?_, ?_⟩
    · intro x hx
      rcases List.mem_cons.1 hx with hx | hx
      · rw [hx]; exact or_lt (and_lt' _) (shr_lt hb1)
      · exact hrb x hx
    · rw [bitsOf_cons, hrc, byteBits_fetch _ _ _ ho' hb1]
      have e1 : (bitsOf out).drop (8 * i + o) = (byteBits out[i]).drop o ++ ((byteBits out[i + 1]).take o ++
          (bitsOf out).drop (8 * (i + 1) + o)) := by
        rw [← List.drop_drop, drop_bits, drop_cons_of hi, bitsOf_cons, List.drop_append_of_le_length (by simp; omega)]
        have e2 : (bitsOf out).drop (8 * (i + 1) + o) = (byteBits out[i + 1]).drop o ++ bitsOf (out.drop (i + 1 + 1)) := by
          rw [← List.drop_drop, drop_bits, drop_cons_of hi1, bitsOf_cons, List.drop_append_of_le_length (by simp; omega)]
        rw [e2, drop_cons_of hi1, bitsOf_cons]
        rw [← List.append_assoc (List.take _ _), List.take_append_drop]
      have e := take_app (l := (byteBits out[i]).drop o ++ (byteBits out[i + 1]).take o)
        (m := (bitsOf out).drop (8 * (i + 1) + o)) (n := 8) (k := n - 8) (by simp; omega)
      have e3 : padZeros n = padZeros (n - 8) := by
        rw [← padZeros_add8 (n - 8), Nat.sub_add_cancel (by omega)]
      rw [show 8 + (n - 8) = n by omega] at e
      rw [e1, ← List.append_assoc, ← List.append_assoc, e, e3]

theorem getBits_spec {b : BitBucket} {bits : List Bool} (h : Rep b bits) (hi : b.idxBoff < 8) (n : Nat) :
    (bits.length < 8 * b.idxByte + b.idxBoff + n → getBits b n = .error .standard) ∧
    (8 * b.idxByte + b.idxBoff + n ≤ bits.length →
      ∃ b', getBits b n = .ok (b', pack ((bits.drop (8 * b.idxByte + b.idxBoff)).take n)) ∧
        b'.output = b.output ∧ b'.outBoff = b.outBoff ∧ b'.idxBoff < 8 ∧
        8 * b'.idxByte + b'.idxBoff = 8 * b.idxByte + b.idxBoff + n) := by
  have hnum := h.numBits
  have hlen := h.length
  constructor
  · intro hgt
    unfold getBits
    rw [if_pos (by rw [hnum]; omega)]
  · intro hle
    have hwin : ((bitsOf b.output).drop (8 * b.idxByte + b.idxBoff)).take n =
        (bits.drop (8 * b.idxByte + b.idxBoff)).take n := by
      rw [h.content, List.drop_append_of_le_length (by omega), List.take_append_of_le_length (by simp; omega)]
    have hwl : ((bits.drop (8 * b.idxByte + b.idxBoff)).take n).length = n := by simp; omega
    unfold getBits
    rw [if_neg (by rw [hnum]; omega)]
    by_cases h0 : b.idxBoff = 0
    · simp only [h0, if_true]
      rw [getAligned_spec _ _ _ _ (by omega)]
      simp only [bind, Except.bind, List.nil_append, Nat.zero_add]
      rw [h0, Nat.add_zero] at hwin hwl hle
      by_cases hm : n % 8 = 0
      · simp only [hm, ne_eq, not_true_eq_false, if_false, pure, Except.pure]
        refine ⟨{ b with idxByte := b.idxByte + n / 8, idxBoff := 0 }, ?_, rfl, rfl, ?_, ?_⟩
        · refine congrArg Except.ok (congrArg (Prod.mk _) ?_)
          apply pack_unique
          · intro x hx
            exact h.bytes x (List.drop_subset _ _ (List.take_subset _ _ hx))
          · rw [Nat.add_zero, hwl, ← hwin]
            have e : padZeros n = [] := by simp [padZeros, hm]
            rw [e, List.append_nil, drop_bits]
            have h1 : b.output.drop b.idxByte = (b.output.drop b.idxByte).take (n / 8) ++ (b.output.drop b.idxByte).drop (n / 8) :=
              (List.take_append_drop _ _).symm
            conv_rhs => rw [h1, bitsOf_append]
            rw [List.take_left' (by simp; omega)]
        · simp only; omega
        · simp only; omega
      · have hidx : b.idxByte + n / 8 < b.output.length := by omega
        simp only [hm, ne_eq, not_false_eq_true, if_true, pure, Except.pure, at?_ok hidx]
        have hmm : n % 8 % 8 = n % 8 := by omega
        simp only [hmm, not_true_eq_false, if_false]
        refine ⟨{ b with idxByte := b.idxByte + n / 8, idxBoff := n % 8 }, ?_, rfl, rfl, ?_, ?_⟩
        rotate_left
        · simp only; omega
        · simp only; omega
        · refine congrArg Except.ok (congrArg (Prod.mk _) ?_)
          apply pack_unique
          · intro x hx
            simp only [List.mem_append, List.mem_singleton] at hx
            rcases hx with hx | hx
            · exact h.bytes x (List.drop_subset _ _ (List.take_subset _ _ hx))
            · rw [hx]; exact clear_lt (h.bytes _ (List.getElem_mem hidx))
          · rw [Nat.add_zero, hwl, ← hwin]
            rw [drop_bits]
            have h1 : b.output.drop b.idxByte = (b.output.drop b.idxByte).take (n / 8) ++ (b.output.drop b.idxByte).drop (n / 8) :=
              (List.take_append_drop _ _).symm
            conv_rhs => rw [h1, bitsOf_append, List.drop_drop]
            rw [bitsOf_append, bitsOf_cons, bitsOf_nil, List.append_nil, byteBits_clear _ _ (by omega)]
            have e := take_app (l := bitsOf ((b.output.drop b.idxByte).take (n / 8)))
              (m := bitsOf (b.output.drop (b.idxByte + n / 8))) (n := 8 * (n / 8)) (k := n % 8) (by simp; omega)
            rw [show 8 * (n / 8) + n % 8 = n by omega] at e
            have e3 : padZeros n = List.replicate (8 - n % 8) false := by
              unfold padZeros
              congr 1
              omega
            rw [e, e3, drop_cons_of hidx, bitsOf_cons, List.take_append_of_le_length (by simp; omega)]
            rw [List.append_assoc]
    · simp only [h0, if_false]
      obtain ⟨s', he, hpos, hlt, r, hr, hrb, hrc⟩ := getLoop_spec b.output h.bytes b.idxBoff (by omega) hi n
        b.idxByte n [] (by omega) le_rfl
      simp only [he, bind, Except.bind, pure, Except.pure]
      rw [if_neg (by simp only [ne_eq, Decidable.not_not]; omega)]
      refine ⟨{ b with idxByte := s'.idxByte, idxBoff := s'.idxBoff }, ?_, rfl, rfl, hlt, hpos⟩
      refine congrArg Except.ok (congrArg (Prod.mk _) ?_)
      rw [hr, List.nil_append]
      apply pack_unique _ _ hrb
      rw [hrc, hwl, hwin]

end Verif.Bits
