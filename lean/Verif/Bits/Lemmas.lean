import Verif.Bits.Model
import Verif.Bits.Spec
import Mathlib.Tactic.IntervalCases
import Mathlib.Data.Nat.Bitwise
/-
Bit-level facts about single bytes and byte strings.
-/
namespace Verif.Bits
open Verif Spec

theorem byteBits_eq (b : Nat) : byteBits b =
    [b.testBit 7, b.testBit 6, b.testBit 5, b.testBit 4, b.testBit 3, b.testBit 2, b.testBit 1, b.testBit 0] := by
  simp [byteBits, natBits, List.range_succ]

@[simp] theorem byteBits_length (b : Nat) : (byteBits b).length = 8 := by simp [byteBits, natBits]
@[simp] theorem natBits_length (w v : Nat) : (natBits w v).length = w := by simp [natBits]

@[simp] theorem bitsOf_nil : bitsOf [] = [] := rfl
@[simp] theorem bitsOf_cons (b : Nat) (l : List Nat) : bitsOf (b :: l) = byteBits b ++ bitsOf l := by
  simp [bitsOf]
@[simp] theorem bitsOf_append (l m : List Nat) : bitsOf (l ++ m) = bitsOf l ++ bitsOf m := by
  simp [bitsOf]
@[simp] theorem bitsOf_length (l : List Nat) : (bitsOf l).length = 8 * l.length := by
  induction l with
  | nil => rfl
  | cons b l ih => simp [ih]; omega

theorem testBit_hi {c i : Nat} (hc : c < 256) (hi : 8 ≤ i) : c.testBit i = false := by
  apply Nat.testBit_lt_two_pow
  calc c < 2 ^ 8 := hc
    _ ≤ 2 ^ i := Nat.pow_le_pow_right (by decide) hi

theorem testBit_255 (i : Nat) : Nat.testBit 255 i = decide (i < 8) := Nat.testBit_two_pow_sub_one 8 i

theorem or_lt {a b : Nat} (ha : a < 256) (hb : b < 256) : a ||| b < 256 := Nat.or_lt_two_pow (n := 8) ha hb

theorem shr_lt {a k : Nat} (ha : a < 256) : a >>> k < 256 :=
  lt_of_le_of_lt (Nat.shiftRight_le a k) ha

theorem and_lt (a : Nat) : a &&& 255 < 256 := Nat.lt_succ_of_le Nat.and_le_right

theorem and_lt' (a : Nat) : 255 &&& a < 256 := Nat.lt_succ_of_le Nat.and_le_left

theorem testBit_clear (m x i : Nat) : (clear m x).testBit i = (x.testBit i && !m.testBit i) := by
  simp only [clear, Nat.testBit_xor, Nat.testBit_and]
  cases x.testBit i <;> cases m.testBit i <;> rfl

theorem clear_lt {a m : Nat} (ha : a < 256) : clear m a < 256 := by
  apply Nat.lt_of_not_le
  intro h
  obtain ⟨i, hi, ht⟩ := Nat.exists_ge_and_testBit_of_ge_two_pow (n := 8) (x := clear m a) h
  simp [testBit_clear, testBit_hi ha hi] at ht

/-- Two bytes with the same bits are equal. -/
theorem byteBits_inj {a b : Nat} (ha : a < 256) (hb : b < 256) (h : byteBits a = byteBits b) : a = b := by
  simp only [byteBits_eq, List.cons.injEq, and_true] at h
  obtain ⟨h7, h6, h5, h4, h3, h2, h1, h0⟩ := h
  apply Nat.eq_of_testBit_eq
  intro i
  by_cases hi : i < 8
  · interval_cases i <;> assumption
  · rw [testBit_hi ha (by omega), testBit_hi hb (by omega)]

theorem byteBits_clear (x k : Nat) (hk : k ≤ 8) :
    byteBits (clear (255 >>> k) x) = (byteBits x).take k ++ List.replicate (8 - k) false := by
  interval_cases k <;>
  simp [-Nat.reduceShiftRight, -Nat.testBit_zero, byteBits_eq, testBit_clear, Nat.testBit_shiftRight, testBit_255, List.replicate]

theorem byteBits_store (x c o : Nat) (ho : 0 < o) (ho' : o < 8) (hc : c < 256)
    (h : (byteBits x).drop o = List.replicate (8 - o) false) :
    byteBits (x ||| (c >>> o)) ++ byteBits ((c <<< (8 - o)) &&& 255) =
      (byteBits x).take o ++ byteBits c ++ List.replicate (8 - o) false := by
  have hh : ∀ i, 8 ≤ i → c.testBit i = false := fun i hi => testBit_hi hc hi
  interval_cases o <;>
  simp only [byteBits_eq, List.drop_succ_cons, List.drop_zero, List.replicate, List.cons.injEq, and_true] at h <;>
  simp [-Nat.reduceShiftRight, -Nat.testBit_zero, byteBits_eq, h, Nat.testBit_or, Nat.testBit_and, Nat.testBit_shiftRight, Nat.testBit_shiftLeft,
    testBit_255, hh, List.replicate]

theorem byteBits_fetch (a b o : Nat) (ho : o < 8) (hb : b < 256) :
    byteBits ((255 &&& (a <<< o)) ||| (b >>> (8 - o))) = (byteBits a).drop o ++ (byteBits b).take o := by
  have hh : ∀ i, 8 ≤ i → b.testBit i = false := fun i hi => testBit_hi hb hi
  interval_cases o <;>
  simp [-Nat.reduceShiftRight, -Nat.testBit_zero, byteBits_eq, Nat.testBit_or, Nat.testBit_and, Nat.testBit_shiftRight, Nat.testBit_shiftLeft,
    testBit_255, hh]

theorem byteBits_part (a o k : Nat) (ho : 0 < o) (hk : o + k ≤ 8) :
    byteBits (0 ||| (clear (255 >>> k) ((a <<< o) &&& 255) >>> 0)) =
      ((byteBits a).drop o).take k ++ List.replicate (8 - k) false := by
  rw [Nat.zero_or, Nat.shiftRight_zero, byteBits_clear _ _ (by omega)]
  congr 1
  have : o < 9 := by omega
  interval_cases o <;> (have : k < 8 := by omega) <;> interval_cases k <;>
  simp_all [-Nat.testBit_zero, byteBits_eq, Nat.testBit_and, Nat.testBit_shiftLeft, testBit_255]

theorem byteBits_part2 (x b o k : Nat) (hk : o + k < 8)
    (h : (byteBits x).drop o = List.replicate (8 - o) false) :
    byteBits (x ||| (clear (255 >>> k) ((b <<< 0) &&& 255) >>> o)) =
      (byteBits x).take o ++ (byteBits b).take k ++ List.replicate (8 - o - k) false := by
  have hb : ((b <<< 0) &&& 255) < 256 := and_lt _
  have : o < 8 := by omega
  interval_cases o <;> (have : k < 8 := by omega) <;> interval_cases k <;>
  simp only [byteBits_eq, List.drop_succ_cons, List.drop_zero, List.replicate, List.cons.injEq, and_true,
    Nat.reduceSub] at h <;>
  simp [-Nat.reduceShiftRight, -Nat.testBit_zero, byteBits_eq, h, testBit_clear, Nat.testBit_or, Nat.testBit_and, Nat.testBit_shiftRight,
    testBit_255, List.replicate] <;> omega

end Verif.Bits
