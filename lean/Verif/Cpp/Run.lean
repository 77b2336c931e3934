import Verif.Cpp.Get
import Verif.Cpp.Spec
/-
Sequences of calls of the C++ bit bucket.
-/
namespace Verif.Cpp
open Verif Bits Bits.Spec

/-- One call. -/
def call (b : BB) : Spec.Op → Py (BB × Spec.Res)
  | .bit x => do let b ← storeBit b x; pure (b, .none)
  | .bits bytes n => do let b ← storeBits b bytes n; pure (b, .none)
  | .bytes bs => do let b ← storeBytes b bs; pure (b, .none)
  | .aligned bs => pure (storeByteAligned b bs, .none)
  | .get n => do let (b, l) ← getBits b [] n; pure (b, .bytes l)
  | .getBit => pure ((getBit b).1, .bit (getBit b).2)
  | .seek p => pure (seek b p, .none)

/-- A sequence of calls. -/
def calls (b : BB) : List Spec.Op → Py (BB × List Spec.Res)
  | [] => pure (b, [])
  | op :: ops => do
    let (b, r) ← call b op
    let (b, rs) ← calls b ops
    pure (b, r :: rs)

theorem byte_bit (x o : Nat) (ho : o < 8) : (x &&& (0x80 >>> o) != 0) = ((byteBits x).drop o).headD false := by
  have h : ∀ k, x &&& 2 ^ k = 2 ^ k * (x.testBit k).toNat := by
    intro k
    rw [Nat.and_two_pow, Nat.mul_comm]
  have h' : ∀ k m, m = 2 ^ k → (x &&& m != 0) = x.testBit k := by
    intro k m hm
    rw [hm, h k]
    cases x.testBit k <;> simp
  interval_cases o
  all_goals simp [-Nat.testBit_zero, byteBits_eq]
  · exact h' 7 _ rfl
  · exact h' 6 _ rfl
  · exact h' 5 _ rfl
  · exact h' 4 _ rfl
  · exact h' 3 _ rfl
  · exact h' 2 _ rfl
  · exact h' 1 _ rfl
  · rw [Nat.testBit_zero]
    rcases Nat.mod_two_eq_zero_or_one x with hx | hx <;> simp [hx]

/-- GetBit: the next bit of the bytes, 0 behind them. -/
theorem getBit_spec (b : BB) (ho : b.idxBoff < 8) :
    (getBit b).2 = ((bitsOf b.bsa).drop (bitsConsumed b)).headD false ∧
    (∃ i o, (getBit b).1 = { b with idxByte := i, idxBoff := o } ∧ o < 8 ∧
      8 * i + o = if b.idxByte < b.bsa.length then bitsConsumed b + 1 else bitsConsumed b) := by
  unfold getBit
  by_cases hi : b.idxByte < b.bsa.length
  · rw [List.getElem?_eq_getElem hi]
    have hc : bitsConsumed b = 8 * b.idxByte + b.idxBoff := by unfold bitsConsumed; omega
    simp only
    constructor
    · rw [hc, bits_at _ _ _ hi ho, byte_bit _ _ ho]
      have hne : (byteBits b.bsa[b.idxByte]).drop b.idxBoff ≠ [] := by
        intro hc
        have := congrArg List.length hc
        simp at this
        omega
      obtain ⟨x, l, hxl⟩ := List.exists_cons_of_ne_nil hne
      rw [hxl]
      split <;> rfl
    · rw [if_pos hi, hc]
      by_cases h8 : b.idxBoff + 1 ≥ 8
      · rw [if_pos h8]
        exact ⟨_, _, rfl, by omega, by omega⟩
      · rw [if_neg h8]
        exact ⟨_, _, rfl, by omega, by omega⟩
  · rw [List.getElem?_eq_none (by omega)]
    have hc : (bitsOf b.bsa).length ≤ bitsConsumed b := by
      rw [bitsOf_length]
      unfold bitsConsumed
      omega
    refine ⟨by rw [List.drop_of_length_le hc]; rfl, b.idxByte, b.idxBoff, rfl, ho, ?_⟩
    rw [if_neg hi]
    unfold bitsConsumed
    omega

theorem holdsC_seek {b : BB} {t : Tape} (h : HoldsC b t) (p : Nat) : HoldsC (seek b p) { t with pos := p } :=
  ⟨h.bytes, h.boff, h.content, h.num, by simp only [seek]; omega, by simp only [seek]; omega⟩

theorem holdsC_getBit {b : BB} {t : Tape} (h : HoldsC b t) (hlt : t.pos < t.bits.length) :
    (getBit b).2 = (t.bits.drop t.pos).headD false ∧ HoldsC (getBit b).1 { t with pos := t.pos + 1 } := by
  obtain ⟨h1, i, o, h2, ho, h3⟩ := getBit_spec b h.lt
  have hpos := h.pos
  have hlen := h.length
  have hl := h.lt
  have hc : bitsConsumed b = t.pos := by unfold bitsConsumed; omega
  rw [if_pos (by omega), hc] at h3
  constructor
  · rw [h1, hc, h.content, List.drop_append_of_le_length (by omega)]
    have hne : t.bits.drop t.pos ≠ [] := by
      intro hc
      have := congrArg List.length hc
      simp at this
      omega
    obtain ⟨x, l, hxl⟩ := List.exists_cons_of_ne_nil hne
    rw [hxl]
    rfl
  · rw [h2]
    exact ⟨h.bytes, h.boff, h.content, h.num, h3.symm, ho⟩

theorem call_spec {b : BB} {t : Tape} (h : HoldsC b t) (op : Spec.Op) (hop : Spec.Legal t op) :
    ∃ b', call b op = .ok (b', (Spec.step t op).2) ∧ HoldsC b' (Spec.step t op).1 := by
  cases op with
  | bit x =>
    obtain ⟨b', he, hh⟩ := holdsC_storeBit h x
    exact ⟨b', by simp [call, he, bind, Except.bind, pure, Except.pure, Spec.step], hh⟩
  | bits bytes n =>
    obtain ⟨b', he, hh⟩ := holdsC_storeBits h bytes n hop.1 hop.2
    exact ⟨b', by simp [call, he, bind, Except.bind, pure, Except.pure, Spec.step], hh⟩
  | bytes bs =>
    obtain ⟨b', he, hh⟩ := holdsC_storeBytes h bs hop
    exact ⟨b', by simp [call, he, bind, Except.bind, pure, Except.pure, Spec.step], hh⟩
  | aligned bs => exact ⟨_, rfl, holdsC_aligned h bs hop⟩
  | get n =>
    obtain ⟨b', he, hh⟩ := holdsC_getBits h [] n hop
    exact ⟨b', by simp [call, he, bind, Except.bind, pure, Except.pure, Spec.step], hh⟩
  | getBit =>
    obtain ⟨h1, h2⟩ := holdsC_getBit h hop
    exact ⟨_, by simp only [call, Spec.step, h1]; rfl, h2⟩
  | seek p => exact ⟨_, rfl, holdsC_seek h p⟩

theorem calls_spec (ops : List Spec.Op) : ∀ {b : BB} {t : Tape}, HoldsC b t → Spec.LegalAll t ops →
    ∃ b', calls b ops = .ok (b', (Spec.run t ops).2) ∧ HoldsC b' (Spec.run t ops).1 := by
  induction ops with
  | nil => intro b t h _; exact ⟨b, rfl, h⟩
  | cons op ops ih =>
    intro b t h ⟨h1, h2⟩
    obtain ⟨b1, he1, hh1⟩ := call_spec h op h1
    obtain ⟨b2, he2, hh2⟩ := ih hh1 h2
    exact ⟨b2, by simp [calls, he1, he2, bind, Except.bind, pure, Except.pure, Spec.run], hh2⟩

theorem HoldsC.packed {b : BB} {t : Tape} (h : HoldsC b t) : b.bsa = pack t.bits :=
  pack_unique _ _ h.bytes h.content

/-- The next `n` bits, zeros behind the last byte. -/
def window (b : BB) (n : Nat) : List Bool := ((bitsOf b.bsa).drop (bitsConsumed b) ++ List.replicate n false).take n

theorem window_length (b : BB) (n : Nat) : (window b n).length = n := by simp [window]

theorem window_succ (b : BB) (ho : b.idxBoff < 8) (n : Nat) :
    window b (n + 1) = (getBit b).2 :: window (getBit b).1 n := by
  obtain ⟨h1, i, o, h2, ho', h3⟩ := getBit_spec b ho
  have hc : bitsConsumed (getBit b).1 = 8 * i + o := by rw [h2]; simp only [bitsConsumed]; omega
  have hbs : (getBit b).1.bsa = b.bsa := by rw [h2]
  unfold window
  rw [hc, hbs, h1, h3]
  by_cases hi : b.idxByte < b.bsa.length
  · rw [if_pos hi]
    have hlt : bitsConsumed b < (bitsOf b.bsa).length := by
      rw [bitsOf_length]
      unfold bitsConsumed
      omega
    rw [List.drop_eq_getElem_cons hlt]
    simp only [List.cons_append, List.take_succ_cons, List.headD_cons, List.cons.injEq, true_and]
    rw [List.take_append, List.take_append, List.take_replicate, List.take_replicate]
    congr 2
    omega
  · rw [if_neg hi]
    have hle : (bitsOf b.bsa).length ≤ bitsConsumed b := by
      rw [bitsOf_length]
      unfold bitsConsumed
      omega
    rw [List.drop_of_length_le hle]
    simp [List.replicate_succ]

theorem shiftLoop_spec (n : Nat) : ∀ (b : BB) (tmp : Nat), b.idxBoff < 8 → tmp < 2 ^ 32 →
    shiftLoop b n tmp = (tmp * 2 ^ n + toNat (window b n)) % 2 ^ 32 := by
  induction n with
  | zero =>
    intro b tmp ho ht
    simp [shiftLoop, window, toNat]
    omega
  | succ n ih =>
    intro b tmp ho ht
    obtain ⟨h1, i, o, h2, ho', h3⟩ := getBit_spec b ho
    have hor : (tmp <<< 1 % 2 ^ 32 ||| (getBit b).2.toNat) = (2 * tmp + (getBit b).2.toNat) % 2 ^ 32 := by
      have e1 : tmp <<< 1 % 2 ^ 32 = (tmp % 2 ^ 31) <<< 1 := by
        rw [Nat.shiftLeft_eq, Nat.shiftLeft_eq]
        omega
      rw [e1, ← Nat.shiftLeft_add_eq_or_of_lt (by cases (getBit b).2 <;> decide), Nat.shiftLeft_eq]
      have : (getBit b).2.toNat < 2 := Bool.toNat_lt _
      omega
    rw [shiftLoop, ih _ _ (by rw [h2]; exact ho') (by
      rw [hor]; exact Nat.mod_lt _ (by decide)), hor, window_succ b ho, toNat_cons, window_length]
    have e : (tmp * 2 ^ (n + 1) + ((getBit b).2.toNat * 2 ^ n + toNat (window (getBit b).1 n))) =
      (2 * tmp + (getBit b).2.toNat) * 2 ^ n + toNat (window (getBit b).1 n) := by ring
    rw [e, Nat.add_mod, Nat.mul_mod, Nat.mod_mod, ← Nat.mul_mod, ← Nat.add_mod]

theorem shiftBits_spec (b : BB) (ho : b.idxBoff < 8) (word n : Nat) (hn : n ≤ 32) :
    shiftBitsIntoWord b word n < 2 ^ 32 ∧
    natBits 32 (shiftBitsIntoWord b word n) = (natBits 32 word).drop n ++ window b n := by
  have hw := toNat_lt (window b n)
  rw [window_length] at hw
  have hlt : toNat (window b n) < 2 ^ 32 := lt_of_lt_of_le hw (Nat.pow_le_pow_right (by decide) hn)
  have hs : shiftLoop b n 0 = toNat (window b n) := by
    rw [shiftLoop_spec n b 0 ho (by decide), Nat.zero_mul, Nat.zero_add, Nat.mod_eq_of_lt hlt]
  have hor : shiftBitsIntoWord b word n = (word % 2 ^ (32 - n)) * 2 ^ n + toNat (window b n) := by
    unfold shiftBitsIntoWord
    rw [hs]
    have e1 : word <<< n % 2 ^ 32 = (word % 2 ^ (32 - n)) <<< n := by
      rw [Nat.shiftLeft_eq, Nat.shiftLeft_eq]
      have : 2 ^ 32 = 2 ^ (32 - n) * 2 ^ n := by rw [← pow_add]; congr 1; omega
      rw [this, Nat.mul_mod_mul_right]
    rw [e1, ← Nat.shiftLeft_add_eq_or_of_lt hw, Nat.shiftLeft_eq]
  have hm : word % 2 ^ (32 - n) < 2 ^ (32 - n) := Nat.mod_lt _ (Nat.two_pow_pos _)
  have hp : 2 ^ 32 = 2 ^ (32 - n) * 2 ^ n := by rw [← pow_add]; congr 1; omega
  constructor
  · rw [hor, hp]
    have := Nat.mul_le_mul_right (2 ^ n) (Nat.succ_le_of_lt hm)
    rw [Nat.succ_mul] at this
    omega
  · rw [hor]
    have e32 : (32 : Nat) = (32 - n) + n := by omega
    conv_lhs => rw [e32, natBits_add]
    have hdiv : (word % 2 ^ (32 - n) * 2 ^ n + toNat (window b n)) / 2 ^ n = word % 2 ^ (32 - n) := by
      rw [Nat.add_comm, Nat.add_mul_div_right _ _ (Nat.two_pow_pos _), Nat.div_eq_of_lt hw, Nat.zero_add]
    rw [show 32 - n + n - n = 32 - n by omega, hdiv, natBits_mod]
    congr 1
    · have : natBits 32 word = natBits n (word / 2 ^ (32 - n)) ++ natBits (32 - n) word := by
        rw [← natBits_add]
        congr 1
        omega
      rw [this, List.drop_left' (by simp)]
    · rw [← natBits_mod]
      have : (word % 2 ^ (32 - n) * 2 ^ n + toNat (window b n)) % 2 ^ n = toNat (window b n) := by
        rw [Nat.add_comm, Nat.add_mul_mod_self_right, Nat.mod_eq_of_lt hw]
      rw [this]
      exact natBits_toNat n _ (window_length b n)

end Verif.Cpp
