import Verif.Http2.Model
import Verif.Http2.Spec
import Mathlib.Tactic.Ring
/- Integer and string primitives of http2Codec.py. -/
namespace Verif.Http2
open Verif Spec

theorem hpackTail_lt {v : Nat} (h : v < 128) : hpackTail v = [v] := by
  rw [hpackTail]; simp [h]

theorem hpackTail_ge {v : Nat} (h : ¬ v < 128) :
    hpackTail v = (v % 128 + 128) :: hpackTail (v / 128) := by
  rw [hpackTail]; simp [h]

theorem hpackTail_ne_nil (v : Nat) : hpackTail v ≠ [] := by
  rw [hpackTail]; split <;> simp

theorem hpackTail_bytes (v : Nat) : ∀ b ∈ hpackTail v, b < 256 := by
  induction v using Nat.strongRecOn with
  | _ v ih =>
    by_cases h : v < 128
    · rw [hpackTail_lt h]; simp; omega
    · rw [hpackTail_ge h]
      intro b hb
      rcases List.mem_cons.1 hb with rfl | hb
      · omega
      · exact ih _ (by omega) b hb

theorem or_80 : ∀ x, x < 128 → (0x80 ||| x) = x + 128 := by decide +kernel

theorem and_80 : ∀ b, b < 256 → ((b &&& 0x80) > 0 ↔ 128 ≤ b) := by decide +kernel

theorem and_7f (b : Nat) : b &&& 0x7f = b % 128 := Nat.and_two_pow_sub_one_eq_mod b 7

theorem shr_7 (b : Nat) : b >>> 7 = b / 128 := Nat.shiftRight_eq_div_pow b 7

theorem contBytes_eq (v : Nat) : ∀ fuel, v ≤ fuel → 0 < v → contBytes fuel v = .ok (hpackTail v) := by
  induction v using Nat.strongRecOn with
  | _ v ih =>
    intro fuel hf hv
    cases fuel with
    | zero => omega
    | succ fuel =>
      rw [contBytes, shr_7, and_7f]
      by_cases h : v < 128
      · have hq : v / 128 = 0 := by omega
        rw [hpackTail_lt h, if_pos hv, hq]
        have : v % 128 = v := by omega
        simp only [this]
        have hz : contBytes fuel 0 = .ok [] := by cases fuel <;> simp [contBytes]
        have : v < 256 := by omega
        simp [packB, hz, this, bind, Except.bind, pure, Except.pure]
      · rw [hpackTail_ge h, if_pos hv]
        have h1 : v / 128 > 0 := by omega
        have h2 := ih (v / 128) (by omega) fuel (by omega) h1
        have h3 : v % 128 + 128 < 256 := by omega
        simp only [if_pos h1, or_80 _ (Nat.mod_lt v (by decide : 128 > 0))]
        simp [packB, h2, h3, bind, Except.bind, pure, Except.pure]

theorem readCont_tail (v : Nat) : ∀ value shift rest,
    readCont value shift (hpackTail v ++ rest) = .ok (value + v * 2 ^ shift, rest) := by
  induction v using Nat.strongRecOn with
  | _ v ih =>
    intro value shift rest
    by_cases h : v < 128
    · rw [hpackTail_lt h]
      have hb : ¬ (v &&& 0x80 > 0) := by rw [and_80 v (by omega)]; omega
      have : v % 128 = v := by omega
      simp only [List.cons_append, List.nil_append, readCont, hb, if_false, and_7f, this,
        Nat.shiftLeft_eq]
    · rw [hpackTail_ge h]
      have hb : (v % 128 + 128) &&& 0x80 > 0 := by rw [and_80 _ (by omega)]; omega
      have hm : (v % 128 + 128) % 128 = v % 128 := by omega
      simp only [List.cons_append, readCont, hb, if_true, and_7f, hm, Nat.shiftLeft_eq]
      rw [ih _ (by omega)]
      have : v * 2 ^ shift = v % 128 * 2 ^ shift + v / 128 * 2 ^ (shift + 7) := by
        have h2 : v * 2 ^ shift = (128 * (v / 128) + v % 128) * 2 ^ shift := by
          rw [Nat.div_add_mod]
        rw [h2]; ring
      rw [this]; simp [Nat.add_assoc]

theorem maxValues_le8 {p : Nat} (h : p ≤ 8) : maxValues p = .ok (2 ^ p - 1) := by
  have : ∀ p, p < 9 → maxValues p = .ok (2 ^ p - 1) := by decide
  exact this p (by omega)

/-- `write_integer` produces the HPACK integer. -/
theorem writeInteger_eq {flags p v : Nat} (hp : p ≤ 8) (hf : flags + (2 ^ p - 1) < 256) :
    writeInteger flags p v = .ok (hpackInt flags p v) := by
  unfold writeInteger hpackInt
  rw [maxValues_le8 hp]
  simp only [bind, Except.bind]
  by_cases h : v < 2 ^ p - 1
  · have : flags + v < 256 := by omega
    simp [h, hp, packB, this]
  · simp only [h, if_false]
    have hcont : contBytes (v - (2 ^ p - 1)) (v - (2 ^ p - 1)) =
        .ok (if v - (2 ^ p - 1) = 0 then [] else hpackTail (v - (2 ^ p - 1))) := by
      split
      · rename_i h0; rw [h0]; simp [contBytes]
      · exact contBytes_eq _ _ (Nat.le_refl _) (by omega)
    rw [hcont]
    by_cases hp0 : p = 0
    · subst hp0
      by_cases h0 : v = 0
      · subst h0; simp [packB, pure, Except.pure, hpackTail_lt]
      · simp [h0, pure, Except.pure]
    · have hp1 : p > 0 := by omega
      by_cases h0 : v - (2 ^ p - 1) = 0
      · simp [h0, packB, pure, Except.pure, hp1, hp0, hf, hpackTail_lt]
      · simp [h0, packB, pure, Except.pure, hp1, hp0, hf]

/-- `write_integer` with no prefix. -/
theorem writeInteger_zero (v : Nat) : writeInteger 0 0 v = .ok (hpackTail v) := by
  rw [writeInteger_eq (by decide) (by decide)]
  simp [hpackInt]

theorem readInteger_zero (b v : Nat) (rest : List Nat) :
    readInteger b 0 (hpackTail v ++ rest) = .ok (v, rest) := by
  unfold readInteger
  simp only [maxValues, bind, Except.bind, pure, Except.pure]
  simp [readCont_tail]

/-- `read_integer` inverts the HPACK integer for prefixes 1..8. -/
theorem readInteger_pos {flags p v : Nat} (hp0 : 0 < p) (hp : p ≤ 8) (hflag : flags % 2 ^ p = 0)
    (rest : List Nat) :
    ∃ b w, hpackInt flags p v = b :: w ∧ flags ≤ b ∧ b ≤ flags + (2 ^ p - 1) ∧
      readInteger b p (w ++ rest) = .ok (v, rest) := by
  have hpos : 0 < 2 ^ p := Nat.pos_of_ne_zero (by simp)
  have hand : ∀ x, x < 2 ^ p → (flags + x) &&& (2 ^ p - 1) = x := by
    intro x hx
    rw [Nat.and_two_pow_sub_one_eq_mod, Nat.add_mod, hflag]
    simp [Nat.mod_eq_of_lt hx]
  have hne : p ≠ 0 := by omega
  unfold hpackInt
  by_cases h : v < 2 ^ p - 1
  · refine ⟨flags + v, [], by simp [h], by omega, by omega, ?_⟩
    unfold readInteger
    have : ¬ (v = 2 ^ p - 1) := by omega
    simp only [hp, if_true, maxValues_le8 hp, bind, Except.bind, pure, Except.pure,
      hand v (by omega), this, if_false]
    simp
  · refine ⟨flags + (2 ^ p - 1), hpackTail (v - (2 ^ p - 1)), by simp [h, hne], by omega, by omega, ?_⟩
    unfold readInteger
    simp only [hp, if_true, maxValues_le8 hp, bind, Except.bind, pure, Except.pure,
      hand (2 ^ p - 1) (by omega)]
    rw [readCont_tail]
    have : 2 ^ p - 1 + (v - (2 ^ p - 1)) * 2 ^ 0 = v := by simp; omega
    rw [this]

theorem writeLiteralString_eq (s : Str) :
    writeLiteralString s = .ok (hpackTail s.length ++ s) := by
  simp [writeLiteralString, writeInteger_zero, bind, Except.bind, pure, Except.pure]

theorem readLiteralString_eq (s : Str) (rest : List Nat) :
    readLiteralString (hpackTail s.length ++ s ++ rest) = .ok (s, rest) := by
  simp [readLiteralString, List.append_assoc, readInteger_zero, bind, Except.bind, pure, Except.pure]

end Verif.Http2
