import Verif.Delta2.Fields
import Verif.Huff.Code
/-
What the packing functions write, and that the unpacking functions read it.
-/
namespace Verif.Delta2
open Verif Verif.Bits Verif.Bits.Spec Verif.Huff

/-! ### Writing at any read position -/

theorem holds_op {b : BitBucket} {t : Tape} (h : Holds b t) (op : Op) (x : List Bool)
    (f : BitBucket → Py BitBucket) (hf : ∀ b, call b op = applyStore b (f b))
    (hs : step t op = (t.write x, .none)) (hop : op.Ok) : ∃ b', f b = .ok b' ∧ Holds b' (t.write x) := by
  obtain ⟨h1, h2⟩ := call_sim h op hop
  rw [hf, hs] at h1 h2
  cases hfb : f b with
  | error e => rw [hfb] at h1; simp [applyStore] at h1
  | ok b' => rw [hfb] at h2; exact ⟨b', rfl, h2⟩

theorem holds_4 {b : BitBucket} {t : Tape} (h : Holds b t) (v : Nat) :
    ∃ b', storeBits4 b v = .ok b' ∧ Holds b' (t.write (natBits 4 v)) :=
  holds_op h (.store4 v) _ (fun b => storeBits4 b v) (fun _ => rfl) rfl trivial

theorem holds_8 {b : BitBucket} {t : Tape} (h : Holds b t) {v : Nat} (hv : v < 2 ^ 8) :
    ∃ b', storeBits8 b v = .ok b' ∧ Holds b' (t.write (natBits 8 v)) :=
  holds_op h (.store8 v) _ (fun b => storeBits8 b v) (fun _ => rfl) (by simp only [step]; rw [if_pos hv]) trivial

theorem holds_16 {b : BitBucket} {t : Tape} (h : Holds b t) {v : Nat} (hv : v < 2 ^ 16) :
    ∃ b', storeBits16 b v = .ok b' ∧ Holds b' (t.write (natBits 16 v)) :=
  holds_op h (.store16 v) _ (fun b => storeBits16 b v) (fun _ => rfl) (by simp only [step]; rw [if_pos hv]) trivial

theorem holds_pack {b : BitBucket} {t : Tape} (h : Holds b t) (x : List Bool) :
    ∃ b', storeBits b (pack x) x.length = .ok b' ∧ Holds b' (t.write x) := by
  have hb := bits_pack x
  have hl : (pack x).length = (x.length + 7) / 8 := by
    have := congrArg List.length hb
    simp [padZeros] at this
    omega
  obtain ⟨b', he, hh⟩ := holds_store h (pack x) x.length (pack_lt x) hl
  refine ⟨b', he, ?_⟩
  rw [hb, List.take_left' rfl] at hh
  exact hh

theorem write_write (t : Tape) (x y : List Bool) : (t.write x).write y = t.write (x ++ y) := by
  simp [Tape.write]

/-! ### Variable-length integers -/

/-- The groups of three bits. -/
def tailBits : Nat → Nat → List Bool
  | 0, v => natBits 4 v
  | fuel + 1, v => if v > 7 then natBits 4 (8 ||| (v &&& 7)) ++ tailBits fuel (v >>> 3) else natBits 4 v

/-- The bits of a variable-length integer. -/
def varBits (v : Nat) : List Bool :=
  if v < 15 then natBits 4 v else natBits 4 15 ++ tailBits (v - 15) (v - 15)

theorem and7 {v : Nat} (h : v ≤ 7) : v &&& 7 = v := by
  have := Nat.and_two_pow_sub_one_of_lt_two_pow (n := 3) (x := v) (by omega)
  simpa using this

theorem packVarLoop_spec (fuel : Nat) : ∀ (v : Nat) {b : BitBucket} {t : Tape}, Holds b t → v ≤ fuel →
    ∃ b', packVarLoop fuel b v = .ok b' ∧ Holds b' (t.write (tailBits fuel v)) := by
  induction fuel with
  | zero =>
    intro v b t h hv
    have : v = 0 := by omega
    subst this
    obtain ⟨b', e, h'⟩ := holds_4 h 0
    exact ⟨b', by unfold packVarLoop; simpa using e, h'⟩
  | succ fuel ih =>
    intro v b t h hv
    by_cases h7 : v > 7
    · obtain ⟨b1, e1, h1⟩ := holds_4 h (8 ||| (v &&& 7))
      have hs : v >>> 3 ≤ fuel := by rw [Nat.shiftRight_eq_div_pow]; omega
      obtain ⟨b2, e2, h2⟩ := ih (v >>> 3) h1 hs
      refine ⟨b2, ?_, ?_⟩
      · unfold packVarLoop
        rw [if_pos h7]
        simp only [bind, Except.bind, e1, e2]
      · rw [tailBits, if_pos h7, ← write_write]
        exact h2
    · obtain ⟨b', e, h'⟩ := holds_4 h v
      refine ⟨b', ?_, ?_⟩
      · unfold packVarLoop
        rw [if_neg h7, and7 (by omega)]
        exact e
      · rw [tailBits, if_neg h7]
        exact h'

theorem packVarInt_spec (v : Nat) {b : BitBucket} {t : Tape} (h : Holds b t) :
    ∃ b', packVarInt b v = .ok b' ∧ Holds b' (t.write (varBits v)) := by
  unfold packVarInt varBits
  rw [if_neg (by omega)]
  by_cases h15 : v < 15
  · rw [if_pos (by omega), if_pos h15]
    have : (v : Int).toNat &&& 15 = v := by
      rw [Int.toNat_natCast]
      have := Nat.and_two_pow_sub_one_of_lt_two_pow (n := 4) (x := v) (by omega)
      simpa using this
    rw [this]
    exact holds_4 h v
  · rw [if_neg (by omega), if_neg h15]
    obtain ⟨b1, e1, h1⟩ := holds_4 h 15
    obtain ⟨b2, e2, h2⟩ := packVarLoop_spec (v - 15) (v - 15) h1 (Nat.le_refl _)
    refine ⟨b2, ?_, ?_⟩
    · simp only [bind, Except.bind, e1, Int.toNat_natCast, e2]
    · rw [← write_write]; exact h2

theorem tailBits_len (fuel : Nat) : ∀ v, 4 ≤ (tailBits fuel v).length := by
  induction fuel with
  | zero => intro v; simp [tailBits]
  | succ fuel ih =>
    intro v
    rw [tailBits]
    split
    · have := ih (v >>> 3); simp
    · simp

theorem varBits_len (v : Nat) : 4 ≤ (varBits v).length := by
  unfold varBits
  split <;> simp

/-- The rest of a number once its first group `n` has been read. -/
theorem unpackVarLoop_spec (fuel : Nat) : ∀ (v shift acc fuel' : Nat) {b : BitBucket} {pre rest : List Bool},
    At b pre (tailBits fuel v ++ rest) → v ≤ fuel → (tailBits fuel v).length ≤ fuel' →
    ∃ b1 n b', getBits4 b = .ok (b1, n) ∧
      unpackVarLoop fuel' b1 n shift (acc + ((n &&& 7) <<< shift)) = .ok (b', ((acc + v * 2 ^ shift : Nat) : Int)) ∧
      At b' (pre ++ tailBits fuel v) rest := by
  have last : ∀ (v shift acc fuel' : Nat) {b : BitBucket} {pre rest : List Bool}, At b pre (natBits 4 v ++ rest) →
      v ≤ 7 → ∃ b1 n b', getBits4 b = .ok (b1, n) ∧
      unpackVarLoop fuel' b1 n shift (acc + ((n &&& 7) <<< shift)) = .ok (b', ((acc + v * 2 ^ shift : Nat) : Int)) ∧
      At b' (pre ++ natBits 4 v) rest := by
    intro v shift acc fuel' b pre rest h hv
    obtain ⟨b1, e1, h1⟩ := at_4 (by omega) h
    refine ⟨b1, v, b1, e1, ?_, h1⟩
    have h8 : v &&& 8 = 0 := by interval_cases v <;> rfl
    cases fuel' <;> rw [unpackVarLoop, if_neg (by simp [h8]), and7 hv, Nat.shiftLeft_eq]
  induction fuel with
  | zero =>
    intro v shift acc fuel' b pre rest h hv hf
    exact last v shift acc fuel' h (by omega)
  | succ fuel ih =>
    intro v shift acc fuel' b pre rest h hv hf
    by_cases h7 : v > 7
    · rw [tailBits, if_pos h7] at h hf ⊢
      have h16 : v &&& 7 < 8 := Nat.lt_of_le_of_lt Nat.and_le_right (by omega)
      have hlt : 8 ||| (v &&& 7) < 2 ^ 4 := by
        generalize v &&& 7 = w at h16
        interval_cases w <;> decide
      rw [List.append_assoc] at h
      obtain ⟨b1, e1, h1⟩ := at_4 hlt h
      have hl4 := tailBits_len fuel (v >>> 3)
      simp only [List.length_append, natBits_length] at hf
      obtain ⟨fuel'', rfl⟩ : ∃ k, fuel' = k + 1 := ⟨fuel' - 1, by omega⟩
      have hs : v >>> 3 ≤ fuel := by rw [Nat.shiftRight_eq_div_pow]; omega
      obtain ⟨b2, n2, b', e2, e3, h3⟩ := ih (v >>> 3) (shift + 3) (acc + (((8 ||| (v &&& 7)) &&& 7) <<< shift)) fuel''
        h1 hs (by omega)
      refine ⟨b1, _, b', e1, ?_, by rw [← List.append_assoc]; exact h3⟩
      have hb : (8 ||| (v &&& 7)) &&& 8 ≠ 0 := by
        generalize v &&& 7 = w at h16
        interval_cases w <;> decide
      rw [unpackVarLoop, if_pos hb]
      simp only [bind, Except.bind, e2]
      rw [e3]
      have hm : (8 ||| (v &&& 7)) &&& 7 = v % 8 := by
        have : v &&& 7 = v % 8 := Nat.and_two_pow_sub_one_eq_mod v 3
        rw [this]
        have hlt := Nat.mod_lt v (by omega : 0 < 8)
        generalize v % 8 = w at hlt
        interval_cases w <;> rfl
      rw [hm, Nat.shiftLeft_eq, Nat.shiftRight_eq_div_pow, Nat.pow_add]
      congr 3
      have := Nat.div_add_mod v 8
      calc acc + v % 8 * 2 ^ shift + v / 2 ^ 3 * (2 ^ shift * 2 ^ 3)
          = acc + (8 * (v / 8) + v % 8) * 2 ^ shift := by norm_num; ring
        _ = acc + v * 2 ^ shift := by rw [this]
    · rw [tailBits, if_neg h7] at h ⊢
      exact last v shift acc fuel' h (by omega)

theorem at_len {b : BitBucket} {pre rest : List Bool} (h : At b pre rest) :
    rest.length ≤ 8 * b.output.length := by
  have := h.bits.length
  simp only [List.length_append] at this
  omega

theorem unpackVarInt_spec (v : Nat) {b : BitBucket} {pre rest : List Bool} (h : At b pre (varBits v ++ rest)) :
    ∃ b', unpackVarInt b = .ok (b', (v : Int)) ∧ At b' (pre ++ varBits v) rest := by
  unfold varBits at h ⊢
  by_cases h15 : v < 15
  · rw [if_pos h15] at h ⊢
    obtain ⟨b1, e1, h1⟩ := at_4 (by omega) h
    refine ⟨b1, ?_, h1⟩
    simp only [unpackVarInt, bind, Except.bind, e1]
    rw [if_pos h15]
    rfl
  · rw [if_neg h15] at h ⊢
    rw [List.append_assoc] at h
    obtain ⟨b1, e1, h1⟩ := at_4 (by decide) h
    have hl := at_len h
    simp only [List.length_append] at hl
    obtain ⟨b2, n, b3, e2, e3, h3⟩ := unpackVarLoop_spec (v - 15) (v - 15) 0 15 (8 * b.output.length) h1
      (Nat.le_refl _) (by omega)
    refine ⟨b3, ?_, by rw [← List.append_assoc]; exact h3⟩
    simp only [unpackVarInt, bind, Except.bind, e1]
    rw [if_neg (by omega), e2]
    simp only
    rw [e3]
    have : 15 + (v - 15) * 2 ^ 0 = v := by omega
    rw [this]

/-! ### Fixed-width integers -/

theorem natBits_shl (w n v : Nat) (h : n ≤ w) : (natBits w (v <<< (w - n))).take n = natBits n v := by
  have := natBits_add n (w - n) (v <<< (w - n))
  rw [show n + (w - n) = w by omega] at this
  rw [this, List.take_left' (by simp), Nat.shiftLeft_eq, Nat.mul_div_cancel _ (Nat.two_pow_pos _)]

theorem bits_pack3 (v : Nat) : bitsOf [v / 65536 % 256, v / 256 % 256, v % 256] = natBits 24 v := by
  have h2 := natBits_add 8 16 v
  have h3 := natBits_add 8 8 v
  have m1 := natBits_mod 8 (v / 65536)
  have m2 := natBits_mod 8 (v / 256)
  have m3 := natBits_mod 8 v
  simp only [bitsOf_cons, bitsOf_nil, List.append_nil, byteBits]
  norm_num at h2 h3 m1 m2 m3
  rw [h2, h3, m1, m2, m3]

/-- The guard looks at one bit. -/
theorem guard_iff (bitlen val : Nat) : val ≠ clear (1 <<< bitlen) val ↔ val.testBit bitlen = true := by
  constructor
  · intro h
    by_contra hb
    apply h
    apply Nat.eq_of_testBit_eq
    intro i
    rw [testBit_clear, Nat.one_shiftLeft, Nat.testBit_two_pow]
    by_cases hi : bitlen = i
    · subst hi; simp at hb; simp [hb]
    · simp [hi]
  · intro h he
    have := congrArg (Nat.testBit · bitlen) he
    simp only [testBit_clear, Nat.one_shiftLeft, Nat.testBit_two_pow_self, h] at this
    simp at this

theorem shl_lt_iff (v k w : Nat) (h : k ≤ w) : v <<< (w - k) < 2 ^ w ↔ v < 2 ^ k := by
  have e : 2 ^ w = 2 ^ k * 2 ^ (w - k) := by rw [← Nat.pow_add]; congr 1; omega
  rw [Nat.shiftLeft_eq, e]
  exact Nat.mul_lt_mul_right (Nat.two_pow_pos _)

/-- Everything PackInt does. -/
theorem packInt_spec (bitlen val : Nat) (h1 : 1 ≤ bitlen) (h2 : bitlen ≤ 32) {b : BitBucket} {t : Tape} (h : Holds b t) :
    if val.testBit bitlen = true then packInt b bitlen val = .error .standard
    else if val < 2 ^ bitlen ∨ (17 ≤ bitlen ∧ bitlen ≤ 24 ∧ val < 2 ^ (bitlen + 8)) then
      ∃ b', packInt b bitlen val = .ok b' ∧ Holds b' (t.write (natBits bitlen val))
    else packInt b bitlen val = .error .struct := by
  have hg := guard_iff bitlen val
  by_cases hb : val.testBit bitlen = true
  · rw [if_pos hb, packInt, if_pos (Or.inr (Or.inr (hg.2 hb)))]
  · rw [if_neg hb]
    have hng : ¬ (bitlen ≤ 0 ∨ bitlen > 32 ∨ val ≠ clear (1 <<< bitlen) val) := by
      rintro (h | h | h)
      · omega
      · omega
      · exact hb (hg.1 h)
    have store : ∀ (bytes : List Nat) (w : Nat), (∀ x ∈ bytes, x < 256) → bytes.length = (bitlen + 7) / 8 → bitlen ≤ w →
        bitsOf bytes = natBits w (val <<< (w - bitlen)) →
        ∃ b', storeBits b bytes bitlen = .ok b' ∧ Holds b' (t.write (natBits bitlen val)) := by
      intro bytes w hx hl hw he
      obtain ⟨b', e, hh⟩ := holds_store h bytes bitlen hx hl
      rw [he, natBits_shl w bitlen val hw] at hh
      exact ⟨b', e, hh⟩
    unfold packInt
    rw [if_neg hng]
    by_cases c8 : bitlen ≤ 8
    · rw [if_pos c8]
      have hlt := shl_lt_iff val bitlen 8 c8
      simp only [packB, bind, Except.bind]
      by_cases hv : val < 2 ^ bitlen
      · rw [if_pos (Or.inl hv), if_pos (by simpa using hlt.2 hv)]
        refine store [_] 8 ?_ ?_ c8 ?_
        · intro x hx; rw [List.mem_singleton] at hx; rw [hx]; simpa using hlt.2 hv
        · simp; omega
        · simp [bitsOf_cons, byteBits]
      · rw [if_neg (by omega), if_neg (by simpa using fun h => hv (hlt.1 h))]
    · rw [if_neg c8]
      by_cases c16 : bitlen ≤ 16
      · rw [if_pos c16]
        have hlt := shl_lt_iff val bitlen 16 c16
        simp only [packH, bind, Except.bind]
        by_cases hv : val < 2 ^ bitlen
        · rw [if_pos (Or.inl hv), if_pos (by simpa using hlt.2 hv)]
          have := hlt.2 hv
          refine store _ 16 ?_ ?_ c16 (bits_packH _)
          · intro x hx
            simp only [List.mem_cons, List.not_mem_nil, or_false] at hx
            rcases hx with rfl | rfl <;> omega
          · simp; omega
        · rw [if_neg (by omega), if_neg (by simpa using fun h => hv (hlt.1 h))]
      · rw [if_neg c16]
        by_cases c24 : bitlen ≤ 24
        · rw [if_pos c24]
          have hlt : val <<< (24 - bitlen) < 2 ^ 32 ↔ val < 2 ^ (bitlen + 8) := by
            have := shl_lt_iff val (bitlen + 8) 32 (by omega)
            rw [show 32 - (bitlen + 8) = 24 - bitlen by omega] at this
            exact this
          simp only [packL, bind, Except.bind]
          by_cases hv : val < 2 ^ (bitlen + 8)
          · rw [if_pos (Or.inr ⟨by omega, c24, hv⟩), if_pos (by simpa using hlt.2 hv)]
            refine store _ 24 ?_ ?_ c24 (bits_pack3 _)
            · intro x hx
              simp only [List.drop_succ_cons, List.drop_zero, List.mem_cons, List.not_mem_nil, or_false] at hx
              rcases hx with rfl | rfl | rfl <;> omega
            · simp; omega
          · have : ¬ val < 2 ^ bitlen := by
              intro hh
              exact hv (Nat.lt_of_lt_of_le hh (Nat.pow_le_pow_right (by omega) (by omega)))
            rw [if_neg (by rintro (h | ⟨_, _, h⟩); exact this h; exact hv h), if_neg (by simpa using fun h => hv (hlt.1 h))]
        · rw [if_neg c24]
          have hlt := shl_lt_iff val bitlen 32 h2
          simp only [packL, bind, Except.bind]
          by_cases hv : val < 2 ^ bitlen
          · rw [if_pos (Or.inl hv), if_pos (by simpa using hlt.2 hv)]
            have := hlt.2 hv
            refine store _ 32 ?_ ?_ h2 (bits_packL _)
            · intro x hx
              simp only [List.mem_cons, List.not_mem_nil, or_false] at hx
              rcases hx with rfl | rfl | rfl | rfl <;> omega
            · simp; omega
          · rw [if_neg (by omega), if_neg (by simpa using fun h => hv (hlt.1 h))]

theorem toNat_append (x y : List Bool) : toNat (x ++ y) = toNat x * 2 ^ y.length + toNat y := by
  induction x with
  | nil => simp [toNat]
  | cons a x ih =>
    rw [List.cons_append, toNat_cons, toNat_cons, ih, List.length_append, Nat.pow_add]
    ring

theorem toNat_shr (x : List Bool) (k : Nat) : toNat (x ++ List.replicate k false) >>> k = toNat x := by
  rw [toNat_append, toNat_zeros, List.length_replicate, Nat.add_zero, Nat.shiftRight_eq_div_pow,
    Nat.mul_div_cancel _ (Nat.two_pow_pos k)]

/-- UnpackInt reads a big-endian number. -/
theorem unpackInt_bits (x : List Bool) (h1 : 1 ≤ x.length) (h2 : x.length ≤ 32) {b : BitBucket} {pre rest : List Bool}
    (h : At b pre (x ++ rest)) : ∃ b', unpackInt b x.length = .ok (b', toNat x) ∧ At b' (pre ++ x) rest := by
  obtain ⟨b', e, h'⟩ := at_get h
  refine ⟨b', ?_, h'⟩
  simp only [unpackInt, bind, Except.bind, e]
  have chunk : ∀ (k : Nat) (y : List Bool), 8 * k < y.length → y.length ≤ 8 * (k + 1) →
      ∃ z : List Bool, y = y.take (8 * k) ++ z ∧ (y.take (8 * k)).length = 8 * k ∧ 0 < z.length ∧ z.length ≤ 8 := by
    intro k y ha hb
    exact ⟨y.drop (8 * k), (List.take_append_drop _ _).symm, by simp; omega, by simp; omega, by simp; omega⟩
  have last : ∀ z : List Bool, 0 < z.length → z.length ≤ 8 →
      pack z = [toNat (z ++ List.replicate (8 - z.length) false)] := by
    intro z hz hz8
    exact pack_small z (by intro h; rw [h] at hz; simp at hz) hz8
  by_cases c8 : x.length ≤ 8
  · rw [if_pos c8, last x (by omega) c8]
    simp only [at?, List.getElem?_cons_zero, pure, Except.pure, toNat_shr]
  · rw [if_neg c8]
    obtain ⟨x1, y1, rfl, hx1⟩ : ∃ x1 y1 : List Bool, x = x1 ++ y1 ∧ x1.length = 8 :=
      ⟨x.take 8, x.drop 8, (List.take_append_drop _ _).symm, by simp; omega⟩
    simp only [List.length_append, hx1] at h1 h2 c8 ⊢
    rw [pack_chunk _ _ hx1]
    by_cases c16 : 8 + y1.length ≤ 16
    · rw [if_pos c16, last y1 (by omega) (by omega)]
      simp only [at?, List.getElem?_cons_zero, List.getElem?_cons_succ, pure, Except.pure]
      congr 2
      have := toNat_shr (x1 ++ y1) (8 - y1.length)
      rw [List.append_assoc, toNat_append x1] at this
      simp only [List.length_append, List.length_replicate] at this
      rw [show y1.length + (8 - y1.length) = 8 by omega] at this
      rw [show 16 - (8 + y1.length) = 8 - y1.length by omega]
      exact this
    · rw [if_neg c16]
      obtain ⟨x2, y2, rfl, hx2⟩ : ∃ x2 y2 : List Bool, y1 = x2 ++ y2 ∧ x2.length = 8 :=
        ⟨y1.take 8, y1.drop 8, (List.take_append_drop _ _).symm, by simp; omega⟩
      simp only [List.length_append, hx2] at h1 h2 c16 ⊢
      rw [pack_chunk _ _ hx2]
      by_cases c24 : 8 + (8 + y2.length) ≤ 24
      · rw [if_pos c24, last y2 (by omega) (by omega)]
        simp only [at?, List.getElem?_cons_zero, List.getElem?_cons_succ, pure, Except.pure]
        congr 2
        have := toNat_shr (x1 ++ (x2 ++ y2)) (8 - y2.length)
        rw [List.append_assoc, List.append_assoc, toNat_append x1, toNat_append x2] at this
        simp only [List.length_append, List.length_replicate, hx2] at this
        rw [show y2.length + (8 - y2.length) = 8 by omega] at this
        rw [show 24 - (8 + (8 + y2.length)) = 8 - y2.length by omega, ← this]
        generalize toNat x1 = a1
        generalize toNat x2 = a2
        generalize toNat (y2 ++ List.replicate (8 - y2.length) false) = a3
        have e : (a1 * 256 + a2) * 256 + a3 = a1 * 2 ^ (8 + 8) + (a2 * 2 ^ 8 + a3) := by omega
        rw [e]
      · rw [if_neg c24]
        obtain ⟨x3, y3, rfl, hx3⟩ : ∃ x3 y3 : List Bool, y2 = x3 ++ y3 ∧ x3.length = 8 :=
          ⟨y2.take 8, y2.drop 8, (List.take_append_drop _ _).symm, by simp; omega⟩
        simp only [List.length_append, hx3] at h1 h2 c24 ⊢
        rw [pack_chunk _ _ hx3, last y3 (by omega) (by omega)]
        simp only [at?, List.getElem?_cons_zero, List.getElem?_cons_succ, pure, Except.pure]
        congr 2
        have := toNat_shr (x1 ++ (x2 ++ (x3 ++ y3))) (8 - y3.length)
        rw [List.append_assoc, List.append_assoc, List.append_assoc, toNat_append x1, toNat_append x2,
          toNat_append x3] at this
        simp only [List.length_append, List.length_replicate, hx2, hx3] at this
        rw [show y3.length + (8 - y3.length) = 8 by omega] at this
        rw [show 32 - (8 + (8 + (8 + y3.length))) = 8 - y3.length by omega, ← this]
        generalize toNat x1 = a1
        generalize toNat x2 = a2
        generalize toNat x3 = a3
        generalize toNat (y3 ++ List.replicate (8 - y3.length) false) = a4
        have e : ((a1 * 256 + a2) * 256 + a3) * 256 + a4 =
            a1 * 2 ^ (8 + (8 + 8)) + (a2 * 2 ^ (8 + 8) + (a3 * 2 ^ 8 + a4)) := by omega
        rw [e]

theorem unpackInt_spec (bitlen val : Nat) (h1 : 1 ≤ bitlen) (h2 : bitlen ≤ 32) {b : BitBucket} {pre rest : List Bool}
    (h : At b pre (natBits bitlen val ++ rest)) :
    ∃ b', unpackInt b bitlen = .ok (b', val % 2 ^ bitlen) ∧ At b' (pre ++ natBits bitlen val) rest := by
  have := unpackInt_bits (natBits bitlen val) (by simpa using h1) (by simpa using h2) h
  rw [toNat_natBits, natBits_length] at this
  exact this

/-! ### Strings -/

/-- The bits of a string: the codes of its bytes, the end symbol, and zeros up to a byte boundary. -/
def strBits (codes : List (List Bool)) (pad : Bool) (n : Nat) (s : Str) : List Bool :=
  let x := textBits codes (s ++ [256])
  if pad then x ++ padZeros (n + x.length) else x

theorem packStr_spec {h : Huffman} {codes : List (List Bool)} (hc : Codes h codes) (h257 : codes.length = 257) (pad : Bool)
    (s : Str) (hs : ∀ c ∈ s, c < 256) {b : BitBucket} {t : Tape} (hb : Holds b t) :
    ∃ b', packStr (some h) pad true b s = .ok b' ∧ Holds b' (t.write (strBits codes pad t.bits.length s)) := by
  have he := encode_spec hc s (fun c hcs => by have := hs c hcs; omega) true (fun _ => by omega)
  simp only [if_true] at he
  obtain ⟨b1, e1, h1⟩ := holds_pack hb (textBits codes (s ++ [256]))
  simp only [packStr, if_true, bind, Except.bind, he, e1, pure, Except.pure]
  cases pad with
  | false => exact ⟨b1, rfl, by simpa [strBits] using h1⟩
  | true =>
    refine ⟨padToByteBoundary b1, rfl, ?_⟩
    have := (call_sim h1 .pad trivial).2
    simp only [step, call] at this
    rw [write_write] at this
    simpa [strBits, Tape.write] using this

theorem unpackStr_spec {h : Huffman} {codes : List (List Bool)} (hc : Codes h codes) (h257 : codes.length = 257) (pad : Bool)
    (s : Str) (hs : ∀ c ∈ s, c < 256) {b : BitBucket} {pre rest : List Bool}
    (ha : At b pre (strBits codes pad pre.length s ++ rest)) :
    ∃ b', unpackStr (some h) pad true b = .ok (b', s) ∧ At b' (pre ++ strBits codes pad pre.length s) rest := by
  cases pad with
  | false =>
    simp only [strBits] at ha ⊢
    obtain ⟨b1, e1, h1⟩ := decode_eof hc (by omega) s hs ha
    refine ⟨b1, ?_, h1⟩
    simp only [unpackStr, if_true, bind, Except.bind, e1]
    rfl
  | true =>
    simp only [strBits, if_true] at ha ⊢
    rw [List.append_assoc] at ha
    obtain ⟨b1, e1, h1⟩ := decode_eof hc (by omega) s hs ha
    have h2 := at_advance (b := b1) (pre := pre ++ textBits codes (s ++ [256])) (rest := rest) (by
      rw [List.length_append]; exact h1)
    refine ⟨advanceReadPtr b1, ?_, ?_⟩
    · simp only [unpackStr, if_true, bind, Except.bind, e1]
      rfl
    · rw [List.length_append] at h2
      rw [← List.append_assoc]
      exact h2

end Verif.Delta2
