import Verif.Text.Simple
import Verif.Bits.Run
/-
Seven-bit packing.
-/
namespace Verif.Text
open Verif Verif.Bits
open Verif.Bits.Spec (bitsOf pack byteBits)

theorem encLoop_spec (t : List Nat) : ∀ fuel, t.length ≤ fuel →
    sevenEncLoop fuel (bitsOf t) = t.flatMap fun c => (byteBits c).drop 1 := by
  induction t with
  | nil => intro fuel _; cases fuel <;> rfl
  | cons c t ih =>
    intro fuel hf
    cases fuel with
    | zero => simp at hf
    | succ fuel =>
      rw [sevenEncLoop, if_neg (by simp [byteBits, Spec.natBits])]
      have h8 : (byteBits c).length = 8 := byteBits_length c
      rw [bitsOf_cons, List.take_left' h8, List.drop_left' h8, ih fuel (by simpa using hf), List.flatMap_cons]

theorem drop_cons_byte {c : Nat} (hc : c < 128) : false :: (byteBits c).drop 1 = byteBits c := by
  rw [byteBits_eq]
  simp only [List.drop_one, List.tail_cons, List.cons.injEq, and_true]
  exact (Nat.testBit_lt_two_pow (i := 7) hc).symm

theorem decLoop_spec (t : List Nat) (ht : ∀ c ∈ t, c < 128) (p : List Bool) (hp : p.length < 8) : ∀ fuel,
    (t.flatMap fun c => (byteBits c).drop 1).length + p.length ≤ fuel →
    sevenDecLoop fuel ((t.flatMap fun c => (byteBits c).drop 1) ++ p) =
      bitsOf t ++ (if p = [] then [] else false :: p) := by
  induction t with
  | nil =>
    intro fuel hf
    simp only [List.flatMap_nil, List.nil_append, bitsOf_nil]
    split
    · rename_i h; rw [h]; cases fuel <;> rfl
    · rename_i h
      cases fuel with
      | zero => simp at hf; exact absurd hf h
      | succ fuel =>
        rw [sevenDecLoop, if_neg h, List.take_of_length_le (by omega), List.drop_of_length_le (by omega)]
        cases fuel <;> simp [sevenDecLoop]
  | cons c t ih =>
    intro fuel hf
    have h7 : ((byteBits c).drop 1).length = 7 := by simp
    cases fuel with
    | zero => simp at hf
    | succ fuel =>
      rw [List.flatMap_cons, List.append_assoc, sevenDecLoop, if_neg (fun h => by
        have := congrArg List.length h; simp at this)]
      rw [List.take_left' h7, List.drop_left' h7,
        ih (fun x hx => ht x (by simp [hx])) fuel (by
          rw [List.flatMap_cons, List.length_append] at hf; omega),
        drop_cons_byte (ht c (by simp)), bitsOf_cons, List.append_assoc]

theorem pack_bitsOf (t : List Nat) (ht : ∀ c ∈ t, c < 256) (x : List Bool) : pack (bitsOf t ++ x) = t ++ pack x := by
  induction t with
  | nil => simp
  | cons c t ih =>
    have h8 : (byteBits c).length = 8 := byteBits_length c
    rw [bitsOf_cons, List.append_assoc, pack_chunk _ _ h8, ih (fun y hy => ht y (by simp [hy])), List.cons_append]
    congr 1
    exact (toNat_natBits 8 c).trans (Nat.mod_eq_of_lt (ht c (by simp)))

theorem pack_short {x : List Bool} (h1 : x ≠ []) (h8 : x.length ≤ 8) : (pack x).length = 1 := by
  cases x with
  | nil => exact absurd rfl h1
  | cons b bs =>
    rw [pack, List.drop_of_length_le (by simpa using h8)]
    simp [pack]

theorem seven_round_trip (t : List Nat) (ht : ∀ c ∈ t, c < 128) :
    sevenDecode (sevenEncode t) = if t.length % 8 = 0 then t.dropLast else t := by
  unfold sevenEncode
  rw [encLoop_spec t _ (by simp; omega)]
  unfold sevenDecode
  have hlen : (t.flatMap fun c => (byteBits c).drop 1).length = 7 * t.length := by
    clear ht
    induction t with
    | nil => rfl
    | cons c t ih => rw [List.flatMap_cons, List.length_append, ih]; simp; omega
  have hb := bits_pack (t.flatMap fun c => (byteBits c).drop 1)
  rw [hb]
  generalize hp : Spec.padZeros _ = p
  have hpl : p.length = (8 - (7 * t.length) % 8) % 8 := by
    rw [← hp, Spec.padZeros, List.length_replicate, hlen]
  rw [decLoop_spec t ht p (by omega) _ (by simp)]
  rw [pack_bitsOf t (fun c hc => Nat.lt_trans (ht c hc) (by decide))]
  by_cases h0 : t.length % 8 = 0
  · have : p = [] := List.length_eq_zero_iff.1 (by omega)
    rw [if_pos this, if_pos h0]
    simp [pack]
  · have hne : p ≠ [] := fun h => by rw [h] at hpl; simp at hpl; omega
    rw [if_neg hne, if_neg h0]
    have h1 := pack_short (x := false :: p) (by simp) (by simp; omega)
    obtain ⟨y, hy⟩ := List.length_eq_one_iff.1 h1
    rw [hy, List.dropLast_concat]

end Verif.Text
