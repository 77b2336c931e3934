import Verif.Cpp.BitBucket
import Verif.Bits.Run
/-
The C++ bit bucket: storing.
-/
namespace Verif.Cpp
open Verif Bits Bits.Spec

/-- The same bytes and positions in the Python bucket. -/
def BB.py (b : BB) : BitBucket := { output := b.bsa, outBoff := b.boff, idxByte := b.idxByte, idxBoff := b.idxBoff }

/-- The bucket holds the tape: its bytes are the bits and zeros up to the byte boundary, and the
number of bits is counted. -/
structure HoldsC (b : BB) (t : Tape) : Prop where
  bytes : ∀ x ∈ b.bsa, x < 256
  boff : b.boff = t.bits.length % 8
  content : bitsOf b.bsa = t.bits ++ padZeros t.bits.length
  num : b.numBits = t.bits.length
  pos : t.pos = 8 * b.idxByte + b.idxBoff
  lt : b.idxBoff < 8

theorem HoldsC.py {b : BB} {t : Tape} (h : HoldsC b t) : Holds b.py t := ⟨⟨h.bytes, h.boff, h.content⟩, h.pos, h.lt⟩

theorem holdsC_of {b : BB} {t : Tape} (h : Holds b.py t) (hn : b.numBits = t.bits.length) : HoldsC b t :=
  ⟨h.rep.bytes, h.rep.boff, h.rep.content, hn, h.pos, h.lt⟩

theorem holdsC_empty : HoldsC BB.empty ⟨[], 0⟩ := ⟨by simp [BB.empty], rfl, rfl, rfl, rfl, by decide⟩

theorem HoldsC.length {b : BB} {t : Tape} (h : HoldsC b t) :
    8 * b.bsa.length = t.bits.length + (8 - t.bits.length % 8) % 8 := by
  have := congrArg List.length h.content
  simpa [padZeros] using this

theorem holdsC_storeBits {b : BB} {t : Tape} (h : HoldsC b t) (inp : List Nat) (n : Nat)
    (hinp : ∀ x ∈ inp, x < 256) (hlen : inp.length = (n + 7) / 8) :
    ∃ b', storeBits b inp n = .ok b' ∧ HoldsC b' (t.write ((bitsOf inp).take n)) := by
  by_cases hn : n = 0
  · subst hn
    refine ⟨b, rfl, ?_⟩
    simpa [Tape.write] using h
  obtain ⟨b1, he, hh⟩ := holds_store h.py inp n hinp hlen
  have hne : inp ≠ [] := by
    rintro rfl
    simp at hlen
    omega
  suffices hs : ∃ b', storeBits b inp n = .ok b' ∧ b'.py = b1 ∧ b'.numBits = b.numBits + n by
    obtain ⟨b', e1, e2, e3⟩ := hs
    refine ⟨b', e1, holdsC_of (by rw [e2]; exact hh) ?_⟩
    rw [e3, h.num]
    simp only [Tape.write, List.length_append, List.length_take, bitsOf_length]
    omega
  obtain ⟨c, hc⟩ : ∃ c, inp.getLast? = some c := by
    cases hx : inp.getLast? with
    | none => exact absurd (List.getLast?_eq_none_iff.1 hx) hne
    | some c => exact ⟨c, rfl⟩
  have hboff := h.boff
  unfold Bits.storeBits at he
  rw [hc] at he
  simp only at he
  unfold Cpp.storeBits
  rw [if_neg hn]
  by_cases h0 : b.boff = 0
  · obtain ⟨p, x, rfl⟩ := exists_snoc hne
    have h0' : b.py.outBoff = 0 := h0
    rw [if_pos h0', ← List.append_assoc, onLast_append] at he
    simp only [bind, Except.bind, pure, Except.pure] at he
    simp only [h0, if_true, ← List.append_assoc]
    by_cases hm : n % 8 = 0
    · have hlo : leftoverBits n = 8 := by simp [leftoverBits, hm]
      rw [hlo, h0', if_neg (by omega)] at he
      simp only [hm, ne_eq, not_true_eq_false, if_false, bind, Except.bind, pure, Except.pure]
      rw [if_neg (by omega)]
      refine ⟨_, rfl, ?_, rfl⟩
      rw [← Except.ok.inj he]
      simp only [BB.py, List.append_assoc, BitBucket.mk.injEq, and_true]
      have : clear (255 >>> 8) x = x := by simp [clear]
      rw [this]
    · have hlo : leftoverBits n = n % 8 := by simp [leftoverBits, hm]
      rw [hlo, h0', if_neg (by omega)] at he
      simp only [hm, ne_eq, not_false_eq_true, if_true, bind, Except.bind, pure, Except.pure, onLast_append]
      rw [if_neg (by omega)]
      refine ⟨_, rfl, ?_, rfl⟩
      rw [← Except.ok.inj he]
      simp [BB.py]
  · have h0' : ¬ b.py.outBoff = 0 := h0
    rw [if_neg h0'] at he
    simp only [h0, if_false]
    have hcont := h.content
    have e1 : padZeros t.bits.length = List.replicate (8 - b.boff) false := by
      unfold padZeros
      congr 1
      omega
    obtain ⟨out1, he1, hb1, hX1, hl1⟩ := loop_spec b.boff (by omega) (by omega) inp hinp b.bsa t.bits h.bytes
      (by rw [hcont, e1])
    obtain ⟨p, y, hp⟩ := hl1 c hc
    have hle : storeLoop b.py.outBoff inp b.py.output = .ok out1 := he1
    rw [hle] at he
    rw [he1]
    have hlo : (if n % 8 ≠ 0 then n % 8 else 8) = leftoverBits n := rfl
    have hpop : popBack out1 = onLast (fun x => x ||| (c >>> b.boff)) out1.dropLast := by
      rw [hp, List.dropLast_concat, onLast_append, Nat.or_assoc, Nat.or_self]
      simp [popBack]
    have hpb : b.py.outBoff = b.boff := rfl
    rw [hlo]
    rw [hpb] at he
    simp only [bind, Except.bind, pure, Except.pure, hpop] at he ⊢
    have c3 := (leftover_pos n).2.2
    generalize leftoverBits n = lo at he c3 ⊢
    generalize onLast (fun x => x ||| (c >>> b.boff)) out1.dropLast = R1 at he ⊢
    have c3 : ¬ ((b.boff + lo) % 8 ≠ (b.boff + n) % 8) := by omega
    have fin : ∀ o, (Except.ok { b.py with output := o, outBoff := (b.boff + lo) % 8 } : Py BitBucket) = .ok b1 →
        ∃ b', (Except.ok { b with bsa := o, boff := (b.boff + lo) % 8, numBits := b.numBits + n } : Py BB) = .ok b' ∧
          b'.py = b1 ∧ b'.numBits = b.numBits + n := by
      intro o ho
      exact ⟨_, rfl, by rw [← Except.ok.inj ho]; rfl, rfl⟩
    by_cases c1 : b.boff + lo ≤ 8 <;> by_cases c2 : (b.boff + lo) % 8 ≠ 0
    · rw [if_pos c1] at he ⊢
      cases R1 with
      | error e => cases he
      | ok o1 =>
        simp only [c3, if_false] at he ⊢
        rw [if_pos c2] at he ⊢
        generalize onLast (clear (255 >>> ((b.boff + lo) % 8))) o1 = R2 at he ⊢
        cases R2 with
        | error e => cases he
        | ok o2 => exact fin _ he
    · rw [if_pos c1] at he ⊢
      cases R1 with
      | error e => cases he
      | ok o1 =>
        simp only [c2, c3, if_false] at he ⊢
        exact fin _ he
    · rw [if_neg c1] at he ⊢
      simp only [c3, if_false] at he ⊢
      rw [if_pos c2] at he ⊢
      generalize onLast (clear (255 >>> ((b.boff + lo) % 8))) out1 = R2 at he ⊢
      cases R2 with
      | error e => cases he
      | ok o2 => exact fin _ he
    · rw [if_neg c1] at he ⊢
      simp only [c2, c3, if_false] at he ⊢
      exact fin _ he

theorem byteBits_bit (x o : Nat) (ho : o < 8) (bit : Bool) (h : (byteBits x).drop o = List.replicate (8 - o) false) :
    byteBits (x ||| ((bit.toNat <<< (7 - o)) % 256)) = (byteBits x).take o ++ [bit] ++ List.replicate (7 - o) false := by
  interval_cases o <;>
  simp only [byteBits_eq, List.drop_succ_cons, List.drop_zero, List.replicate, List.cons.injEq, and_true] at h <;>
  cases bit <;>
  simp [-Nat.testBit_zero, byteBits_eq, h, Nat.testBit_or, List.replicate] <;>
  (repeat' apply And.intro) <;> first | decide | exact fun hh => absurd hh (by decide)

theorem holdsC_storeBit {b : BB} {t : Tape} (h : HoldsC b t) (bit : Bool) :
    ∃ b', storeBit b bit = .ok b' ∧ HoldsC b' (t.write [bit]) := by
  have hlen := h.length
  have hboff := h.boff
  have hcont := h.content
  have hnum := h.num
  -- the bytes after the optional push
  obtain ⟨p, x, hp, hpx, hx, hpl, hd⟩ : ∃ p x, (if (b.numBits + 1 + 7) / 8 > b.bsa.length then b.bsa ++ [0] else b.bsa) =
      p ++ [x] ∧ (∀ y ∈ p, y < 256) ∧ x < 256 ∧ bitsOf p ++ (byteBits x).take b.boff = t.bits ∧
      (byteBits x).drop b.boff = List.replicate (8 - b.boff) false := by
    by_cases h0 : b.boff = 0
    · rw [if_pos (by rw [hnum]; omega)]
      refine ⟨b.bsa, 0, rfl, h.bytes, by decide, ?_, ?_⟩
      · rw [h0, hcont]
        simp [padZeros, ← hboff, h0]
      · rw [h0]
        decide
    · rw [if_neg (by rw [hnum]; omega)]
      have hne : b.bsa ≠ [] := by
        intro hc
        rw [hc] at hlen
        simp at hlen
        omega
      obtain ⟨p, x, hpx⟩ := exists_snoc hne
      rw [hpx] at hcont hlen
      simp only [List.length_append, List.length_singleton] at hlen
      have hX' : bitsOf p ++ byteBits x = t.bits ++ padZeros t.bits.length := by simpa using hcont
      obtain ⟨e1, e2⟩ := split_eq hX' (k := b.boff) (by simp; omega)
      refine ⟨p, x, hpx, fun y hy => h.bytes y (by rw [hpx]; simp [hy]), h.bytes x (by rw [hpx]; simp), e1.symm, ?_⟩
      rw [← e2]
      unfold padZeros
      congr 1
      omega
  have hlt : b.boff < 8 := by omega
  refine ⟨{ b with bsa := p ++ [x ||| ((bit.toNat <<< (7 - b.boff)) % 256)], boff := (b.boff + 1) % 8,
                   numBits := b.numBits + 1 }, ?_, ⟨?_, ?_, ?_, ?_, h.pos, h.lt⟩⟩
  · simp only [storeBit, hp, onLast_append, bind, Except.bind, pure, Except.pure]
  · intro y hy
    simp only [List.mem_append, List.mem_singleton] at hy
    rcases hy with hy | hy
    · exact hpx y hy
    · rw [hy]; exact or_lt hx (Nat.mod_lt _ (by decide))
  · simp only [Tape.write, List.length_append, List.length_singleton]
    omega
  · simp only [bitsOf_append, bitsOf_cons, bitsOf_nil, List.append_nil, byteBits_bit x _ hlt bit hd, Tape.write,
      List.length_append, List.length_singleton]
    rw [← hpl]
    simp only [List.append_assoc, padZeros]
    congr 4
    simp only [List.length_append, bitsOf_length, List.length_take, byteBits_length]
    omega
  · simp [Tape.write, hnum]

theorem bytes_aligned {b : BB} {t : Tape} (h : HoldsC b t) (h0 : b.boff = 0) : bitsOf b.bsa = t.bits := by
  have := h.content
  have hb := h.boff
  rw [this]
  simp [padZeros, ← hb, h0]

theorem holdsC_storeBytes {b : BB} {t : Tape} (h : HoldsC b t) (inp : List Nat) (hinp : ∀ x ∈ inp, x < 256) :
    ∃ b', storeBytes b inp = .ok b' ∧ HoldsC b' (t.write (bitsOf inp)) := by
  have hboff := h.boff
  have hm : (t.bits.length + 8 * inp.length) % 8 = t.bits.length % 8 := by omega
  by_cases h0 : b.boff = 0
  · refine ⟨{ b with bsa := b.bsa ++ inp, numBits := b.numBits + inp.length * 8 }, ?_, ⟨?_, ?_, ?_, ?_, h.pos, h.lt⟩⟩
    · simp [storeBytes, h0, bind, Except.bind, pure, Except.pure]
    · intro y hy
      rcases List.mem_append.1 hy with hy | hy
      · exact h.bytes y hy
      · exact hinp y hy
    · simp only [Tape.write, List.length_append, bitsOf_length, hm]
      exact hboff
    · simp only [Tape.write, bitsOf_append, bytes_aligned h h0, List.length_append, bitsOf_length, padZeros, hm]
      simp [← hboff, h0]
    · simp [Tape.write, h.num]
      omega
  · have e1 : padZeros t.bits.length = List.replicate (8 - b.boff) false := by
      unfold padZeros
      congr 1
      omega
    obtain ⟨out1, he1, hb1, hX1, -⟩ := loop_spec b.boff (by omega) (by omega) inp hinp b.bsa t.bits h.bytes
      (by rw [h.content, e1])
    refine ⟨{ b with bsa := out1, numBits := b.numBits + inp.length * 8 }, ?_, ⟨hb1, ?_, ?_, ?_, h.pos, h.lt⟩⟩
    · simp [storeBytes, h0, he1, bind, Except.bind, pure, Except.pure]
    · simp only [Tape.write, List.length_append, bitsOf_length, hm]
      exact hboff
    · simp only [Tape.write, hX1, List.length_append, bitsOf_length]
      rw [← e1]
      simp only [padZeros, hm]
    · simp [Tape.write, h.num]
      omega

theorem holdsC_aligned {b : BB} {t : Tape} (h : HoldsC b t) (inp : List Nat) (hinp : ∀ x ∈ inp, x < 256) :
    HoldsC (storeByteAligned b inp) (t.write (padZeros t.bits.length ++ bitsOf inp)) := by
  have hlen := h.length
  have hpl : (padZeros t.bits.length).length = (8 - t.bits.length % 8) % 8 := by simp [padZeros]
  have hm : (t.bits ++ (padZeros t.bits.length ++ bitsOf inp)).length = (b.bsa ++ inp).length * 8 := by
    simp only [List.length_append, bitsOf_length, hpl]
    omega
  refine ⟨?_, ?_, ?_, ?_, h.pos, h.lt⟩
  · intro y hy
    rcases List.mem_append.1 hy with hy | hy
    · exact h.bytes y hy
    · exact hinp y hy
  · simp only [Tape.write, hm, storeByteAligned]
    omega
  · simp only [Tape.write, hm, storeByteAligned, bitsOf_append, h.content]
    simp [padZeros]
  · simp only [Tape.write, hm, storeByteAligned]

end Verif.Cpp
