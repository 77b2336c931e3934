import Verif.HeaderDiff.Model
import Verif.HeaderDiff.HuffLemmas
/-
headerdiff's integers and strings: what is read is what was written.
-/
namespace Verif.HeaderDiff
open Verif

theorem lowSeven : ∀ r < 128, 0x80 ||| r < 256 ∧ (0x80 ||| r) &&& 0x80 > 0 ∧ (0x80 ||| r) &&& 0x7f = r ∧ 0 ||| r = r ∧
    ¬ r &&& 0x80 > 0 := by
  decide +kernel

theorem writeLoop_spec (fuel : Nat) : ∀ v, v < fuel → ∃ bytes, writeLoop fuel v = .ok bytes ∧ (∀ b ∈ bytes, b < 256) ∧
    (v = 0 → bytes = []) ∧ (0 < v → ∀ rest acc f, readLoop (bytes ++ rest) acc f = .ok (acc + v * f, rest)) := by
  induction fuel with
  | zero => intro v h; omega
  | succ fuel ih =>
    intro v hv
    unfold writeLoop
    by_cases h0 : v > 0
    · rw [if_pos h0]
      have hr : v - v / 128 * 128 < 128 := by omega
      obtain ⟨f1, f2, f3, f4, f5⟩ := lowSeven _ hr
      obtain ⟨bs, e, hb, hz, hs⟩ := ih (v / 128) (by omega)
      by_cases hq : v / 128 > 0
      · refine ⟨(0x80 ||| (v - v / 128 * 128)) :: bs, ?_, ?_, by omega, fun _ rest acc f => ?_⟩
        · simp only [if_pos hq, packB, if_pos f1, e, bind, Except.bind]
          rfl
        · intro b hm
          rcases List.mem_cons.1 hm with rfl | hm
          · exact f1
          · exact hb b hm
        · rw [List.cons_append, readLoop, if_pos f2, f3, hs hq]
          have hv : v = v / 128 * 128 + (v - v / 128 * 128) := by omega
          congr 2
          generalize v / 128 = q at *
          generalize v - q * 128 = r at *
          rw [hv]
          ring
      · have hq0 : v / 128 = 0 := by omega
        have hbs := hz hq0
        have hv' : v - v / 128 * 128 = v := by omega
        rw [hv'] at f4 f5 hr
        refine ⟨[v], ?_, ?_, by omega, fun _ rest acc f => ?_⟩
        · simp only [if_neg hq, hv', packB, f4, if_pos (show v < 256 by omega), e, hbs, bind, Except.bind]
          rfl
        · simp; omega
        · rw [List.cons_append, readLoop, if_neg f5, List.nil_append]
    · rw [if_neg h0]
      exact ⟨[], rfl, by simp, by simp, fun h => absurd h h0⟩

/-- The bytes after the prefix, for what the prefix cannot hold. -/
theorem writeTail_spec (m v : Nat) (h : m ≤ v) : ∃ bytes, writeTail (v - m) = .ok bytes ∧ (∀ b ∈ bytes, b < 256) ∧
    ∀ more, readLoop (bytes ++ more) m 1 = .ok (v, more) := by
  unfold writeTail
  by_cases h0 : v - m = 0
  · refine ⟨[0], by simp [h0, packB], by simp, fun more => ?_⟩
    simp only [List.cons_append, List.nil_append, readLoop]
    simp
    omega
  · obtain ⟨bs, e, hb, hz, hs⟩ := writeLoop_spec (v - m + 1) (v - m) (by omega)
    refine ⟨bs, by rw [if_neg h0, e], hb, fun more => ?_⟩
    rw [hs (by omega)]
    congr 2
    omega

/-- Without a prefix. -/
theorem integer_zero (v : Nat) : ∃ bytes, (∀ b, writeInteger b 0 v = .ok bytes) ∧ (∀ b ∈ bytes, b < 256) ∧
    ∀ c rest, readInteger c 0 (bytes ++ rest) = .ok (v, rest) := by
  obtain ⟨r, e, hb, hs⟩ := writeTail_spec 0 v (by omega)
  refine ⟨r, fun b => ?_, hb, fun c rest => ?_⟩
  · simp only [writeInteger, show maxValue 0 = .ok 0 from rfl, bind, Except.bind, Nat.not_lt_zero, if_false, writeFull, e,
      show ¬ (0 : Nat) > 0 by omega]
    rfl
  · simp only [readInteger, readPrefix, show maxValue 0 = .ok 0 from rfl, bind, Except.bind, Nat.zero_le, if_true, Nat.and_zero]
    exact hs rest

theorem maxValue_short {p : Nat} (hp : p = 4 ∨ p = 5 ∨ p = 6 ∨ p = 8) : maxValue p = .ok (2 ^ p - 1) ∧ 0 < p ∧ p ≤ 8 := by
  rcases hp with rfl | rfl | rfl | rfl <;> exact ⟨rfl, by omega, by omega⟩

/-- With a prefix of at most 8 bits. -/
theorem integer_short (p b v : Nat) (hp : p = 4 ∨ p = 5 ∨ p = 6 ∨ p = 8) (hb : b < 256) (hlow : b &&& (2 ^ p - 1) = 0) :
    ∃ low bytes, low < 2 ^ p ∧ writeInteger b p v = .ok ((b ||| low) :: bytes) ∧ (∀ x ∈ bytes, x < 256) ∧
      ∀ rest, readInteger (b ||| low) p (bytes ++ rest) = .ok (v, rest) := by
  obtain ⟨hm, h0, h8⟩ := maxValue_short hp
  have hpow : 2 ^ p ≤ 256 := by
    have : (2 : Nat) ^ p ≤ 2 ^ 8 := Nat.pow_le_pow_right (by omega) h8
    simpa using this
  have hpos := Nat.two_pow_pos p
  have hand : ∀ w, w < 2 ^ p → (b ||| w) &&& (2 ^ p - 1) = w := by
    intro w hw
    rw [Nat.and_or_distrib_right, hlow, Nat.zero_or, Nat.and_two_pow_sub_one_eq_mod, Nat.mod_eq_of_lt hw]
  have hor : ∀ w, w < 2 ^ p → b ||| w < 256 := fun w hw => Nat.or_lt_two_pow (n := 8) hb (by omega)
  by_cases hv : v < 2 ^ p - 1
  · refine ⟨v, [], by omega, ?_, by simp, fun rest => ?_⟩
    · simp only [writeInteger, hm, bind, Except.bind, if_pos hv, if_pos h8, packB, if_pos (hor v (by omega))]
    · simp only [readInteger, readPrefix, hm, bind, Except.bind, if_pos h8, hand v (by omega)]
      rw [if_neg (by omega)]
      rfl
  · obtain ⟨r, e, hbs, hs⟩ := writeTail_spec (2 ^ p - 1) v (by omega)
    refine ⟨2 ^ p - 1, r, by omega, ?_, hbs, fun rest => ?_⟩
    · simp only [writeInteger, hm, bind, Except.bind, if_neg hv, writeFull, if_pos (show p > 0 by omega), packB,
        if_pos (hor (2 ^ p - 1) (by omega)), e]
      rfl
    · simp only [readInteger, readPrefix, hm, bind, Except.bind, if_pos h8, hand (2 ^ p - 1) (by omega), if_true]
      exact hs rest

theorem high_byte : ∀ x < 64, 0xc0 ||| x < 256 ∧ (0xc0 ||| x) &&& 0x3f = x ∧ (0xc0 ||| x) &&& 0x80 ≠ 0 ∧ (0xc0 ||| x) &&& 0x40 ≠ 0 := by
  decide +kernel

theorem max14 : ∃ M, M = 16383 ∧ maxValue 14 = .ok M := ⟨_, rfl, rfl⟩

theorem shl_or (a c : Nat) (hc : c < 256) : a <<< 8 ||| c = a * 256 + c := by
  rw [← Nat.shiftLeft_add_eq_or_of_lt (i := 8) (by simpa using hc), Nat.shiftLeft_eq]

/-- With the prefix of 14 bits. -/
theorem integer_long (b v : Nat) (hb : b < 256) (hlow : b &&& 0x3f = 0) (hv : v < 16383) :
    ∃ high low, high < 64 ∧ low < 256 ∧ writeInteger b 14 v = .ok [b ||| high, low] ∧
      ∀ rest, readInteger (b ||| high) 14 (low :: rest) = .ok (v, rest) := by
  obtain ⟨M, hM, hmax⟩ := max14
  have hh : v >>> 8 < 64 := by rw [Nat.shiftRight_eq_div_pow]; omega
  have hl : v &&& 0xff = v % 256 := Nat.and_two_pow_sub_one_eq_mod v 8
  have hor : b ||| v >>> 8 < 256 := Nat.or_lt_two_pow (n := 8) hb (by omega)
  have hmod : v % 256 < 256 := Nat.mod_lt _ (by omega)
  refine ⟨v >>> 8, v % 256, hh, hmod, ?_, fun rest => ?_⟩
  · simp only [writeInteger, hmax, bind, Except.bind, if_pos (show v < M by omega),
      if_neg (show ¬ 14 ≤ 8 by omega), hl, shl_or _ _ hmod, packH]
    generalize b ||| v >>> 8 = w at *
    rw [if_pos (by omega)]
    rw [show (w * 256 + v % 256) / 256 = w by omega, show (w * 256 + v % 256) % 256 = v % 256 by omega]
  · have h1 : (b ||| v >>> 8) &&& 0x3f = v >>> 8 := by
      rw [Nat.and_or_distrib_right, hlow, Nat.zero_or]
      have := Nat.and_two_pow_sub_one_eq_mod (v >>> 8) 6
      norm_num at this
      rw [this, Nat.mod_eq_of_lt hh]
    have h2 : v % 256 &&& 0xff = v % 256 := by
      have := Nat.and_two_pow_sub_one_eq_mod (v % 256) 8
      norm_num at this
      exact this
    simp only [readInteger, readPrefix, if_neg (show ¬ 14 ≤ 8 by omega), show maxValue (14 - 8) = .ok 0x3f from rfl,
      show maxValue 8 = .ok 0xff from rfl, hmax, readByte, bind, Except.bind, h1, h2, shl_or _ _ hmod]
    have h3 : v >>> 8 * 256 + v % 256 = v := by rw [Nat.shiftRight_eq_div_pow]; omega
    rw [h3, if_neg (by omega)]

theorem integer_long_error (b v : Nat) (hv : 16383 ≤ v) : writeInteger b 14 v = .error .struct := by
  obtain ⟨M, hM, hmax⟩ := max14
  have : ¬ b ||| M < 256 := by
    have : M ≤ b ||| M := Nat.right_le_or
    omega
  simp only [writeInteger, hmax, bind, Except.bind, if_neg (show ¬ v < M by omega), writeFull,
    if_pos (show 14 > 0 by omega), packB, if_neg this]

/-! ### Strings -/

/-- The coder, if there is one, was made from some table. -/
def CoderOk (cfg : Cfg) : Prop := ∀ h, cfg.huffman = some h → ∃ syms, Codes h syms

theorem string_spec {cfg : Cfg} (hc : CoderOk cfg) {s : Str} {out : List Nat} (hs : ∀ c ∈ s, c < 256)
    (h : writeString cfg s = .ok out) (rest : List Nat) : readString cfg (out ++ rest) = .ok (s, rest) := by
  unfold writeString at h
  unfold readString
  cases hh : cfg.huffman with
  | none =>
    rw [hh] at h
    obtain ⟨bs, e, _, hr⟩ := integer_zero s.length
    simp only [e, bind, Except.bind] at h
    cases h
    simp only [List.append_assoc, hr, bind, Except.bind, List.take_left, List.drop_left]
  | some c =>
    rw [hh] at h
    obtain ⟨syms, hcodes⟩ := hc c hh
    simp only at h ⊢
    by_cases hall : ∀ x ∈ s ++ [256], Dict.has c.encoder x = true
    · rw [encode_spec c s (fun x hx => hall x (by simp [hx])) (hall 256 (by simp))] at h
      cases h
      simp only [decode_spec hcodes s hs hall rest, bind, Except.bind, List.drop_left]
    · rw [encode_error c s (by push Not at hall; simpa using hall)] at h
      cases h

end Verif.HeaderDiff
