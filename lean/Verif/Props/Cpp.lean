import Verif.Cpp.Run
/-
C87-C89: the C++ bit bucket (compressor/delta/bit_bucket.h).
-/
namespace Verif.Props
open Verif.Cpp Verif.Cpp.Spec
open Verif.Bits.Spec (Tape bitsOf natBits byteBits pack padZeros toNat)

/-- C87: every sequence of StoreBit, StoreBits, StoreBytes, StoreByteAligned, GetBits, GetBit and Seek
that stores as many bytes as the bits need and reads only what was written runs without undefined
behaviour or abort and delivers what the tape delivers; NumBits, BitsConsumed and AllConsumed are
exact, and the bytes are the packed bits. -/
theorem C87_tape (ops : List Op) (hops : LegalAll ⟨[], 0⟩ ops) :
    ∃ b, calls BB.empty ops = .ok (b, (run ⟨[], 0⟩ ops).2) ∧
      b.bsa = pack (run ⟨[], 0⟩ ops).1.bits ∧ b.numBits = (run ⟨[], 0⟩ ops).1.bits.length ∧
      bitsConsumed b = (run ⟨[], 0⟩ ops).1.pos ∧
      (allConsumed b = true ↔ (run ⟨[], 0⟩ ops).1.bits.length ≤ (run ⟨[], 0⟩ ops).1.pos) := by
  obtain ⟨b, he, hh⟩ := calls_spec ops holdsC_empty hops
  have hc : bitsConsumed b = (run ⟨[], 0⟩ ops).1.pos := by
    rw [hh.pos]
    unfold bitsConsumed
    omega
  refine ⟨b, he, hh.packed, hh.num, hc, ?_⟩
  unfold allConsumed
  rw [hc, hh.num]
  simp

example : LegalAll ⟨[], 0⟩ [.bit true, .bits [0xab, 0xc0] 10, .bytes [0x12], .get 5, .aligned [0x34], .getBit, .get 15,
    .seek 3, .get 20] := by
  simp [LegalAll, Legal, step, Tape.write, padZeros]

/-- C87: GetBit behind the last byte gives 0 and stays there, wherever Seek went. -/
theorem C87_behind (ops : List Op) (hops : LegalAll ⟨[], 0⟩ ops) (p : Nat)
    (hp : (run ⟨[], 0⟩ ops).1.bits.length ≤ p) :
    ∃ b rs, calls BB.empty ops = .ok (b, rs) ∧ (getBit (seek b p)).2 = false := by
  obtain ⟨b, he, hh⟩ := calls_spec ops holdsC_empty hops
  refine ⟨b, _, he, ?_⟩
  obtain ⟨h1, -⟩ := getBit_spec (seek b p) (by simp only [seek]; omega)
  have hc : bitsConsumed (seek b p) = p := by simp only [bitsConsumed, seek]; omega
  have hb : (seek b p).bsa = b.bsa := rfl
  rw [h1, hc, hb, hh.content, List.drop_append, List.drop_of_length_le hp, List.nil_append]
  unfold padZeros
  rw [List.drop_replicate]
  cases (8 - (run ⟨[], 0⟩ ops).1.bits.length % 8) % 8 - (p - (run ⟨[], 0⟩ ops).1.bits.length) <;> rfl

example : (getBit (seek BB.empty 7)).2 = false := by decide

/-- C87: what is stored comes back: any bits stored with StoreBits behind any others are returned by
GetBits from where they start. -/
theorem C87_roundtrip (ops : List Op) (hops : LegalAll ⟨[], 0⟩ ops) (bytes : List Nat) (n : Nat)
    (hb : ∀ x ∈ bytes, x < 256) (hn : bytes.length = (n + 7) / 8) :
    ∃ b rs, calls BB.empty (ops ++ [.bits bytes n, .seek (run ⟨[], 0⟩ ops).1.bits.length, .get n]) = .ok (b, rs) ∧
      rs.getLast? = some (.bytes (pack ((bitsOf bytes).take n))) := by
  obtain ⟨b, he, hh⟩ := calls_spec ops holdsC_empty hops
  have happ : ∀ (ops' : List Op), calls BB.empty (ops ++ ops') =
      (calls b ops').bind fun r => .ok (r.1, (run ⟨[], 0⟩ ops).2 ++ r.2) := by
    intro ops'
    have : ∀ (o : List Op) (b0 : BB) (rs : List Res), calls b0 o = .ok (b, rs) →
        calls b0 (o ++ ops') = (calls b ops').bind fun r => .ok (r.1, rs ++ r.2) := by
      intro o
      induction o with
      | nil =>
        intro b0 rs h0
        obtain ⟨rfl, rfl⟩ : b0 = b ∧ [] = rs := by simpa [calls, pure, Except.pure] using h0
        simp [Except.bind]
        cases calls b0 ops' <;> rfl
      | cons op o ih =>
        intro b0 rs h0
        simp only [calls, bind, Except.bind, List.cons_append] at h0 ⊢
        cases hc : call b0 op with
        | error e => rw [hc] at h0; cases h0
        | ok r1 =>
          rw [hc] at h0
          simp only at h0 ⊢
          cases hcs : calls r1.1 o with
          | error e => rw [hcs] at h0; cases h0
          | ok r2 =>
            rw [hcs] at h0
            simp only [pure, Except.pure, Except.ok.injEq, Prod.mk.injEq] at h0
            have := ih r1.1 r2.2 (by rw [hcs, ← h0.1])
            rw [this, ← h0.2]
            cases calls b ops' <;> rfl
    exact this ops _ _ he
  obtain ⟨b2, he2, hh2⟩ := calls_spec [.bits bytes n, .seek (run ⟨[], 0⟩ ops).1.bits.length, .get n] hh (by
    refine ⟨⟨hb, hn⟩, trivial, ?_, trivial⟩
    simp only [Legal, step, Tape.write, List.length_append, List.length_take, Bits.bitsOf_length]
    omega)
  refine ⟨b2, _, by rw [happ, he2]; rfl, ?_⟩
  simp only [run, step, Tape.write, List.drop_left, List.getLast?_append]
  simp [List.take_take]

example : (calls BB.empty ([.bit true, .bits [0xa8] 5] ++ [.bits [0x12, 0x34] 14, .seek 6, .get 14])).toOption.map (·.2.getLast?) =
    some (some (.bytes [0x12, 0x34])) := by decide

/-- C88: where the bits do not end on a byte boundary, StoreBits8, StoreBits16 and StoreBits32 append
the bits of their argument and count them. -/
theorem C88_between_partial (ops : List Op) (hops : LegalAll ⟨[], 0⟩ ops) (v : Nat)
    (hmid : (run ⟨[], 0⟩ ops).1.bits.length % 8 ≠ 0) :
    ∃ b rs, calls BB.empty ops = .ok (b, rs) ∧
      (v < 2 ^ 8 → ∃ b', storeBits8 b v = .ok b' ∧ b'.bsa = pack ((run ⟨[], 0⟩ ops).1.bits ++ natBits 8 v) ∧
        b'.numBits = (run ⟨[], 0⟩ ops).1.bits.length + 8) ∧
      (v < 2 ^ 16 → ∃ b', storeBits16 b v = .ok b' ∧ b'.bsa = pack ((run ⟨[], 0⟩ ops).1.bits ++ natBits 16 v) ∧
        b'.numBits = (run ⟨[], 0⟩ ops).1.bits.length + 16) ∧
      (v < 2 ^ 32 → ∃ b', storeBits32 b v = .ok b' ∧ b'.bsa = pack ((run ⟨[], 0⟩ ops).1.bits ++ natBits 32 v) ∧
        b'.numBits = (run ⟨[], 0⟩ ops).1.bits.length + 32) := by
  obtain ⟨b, he, hh⟩ := calls_spec ops holdsC_empty hops
  refine ⟨b, _, he, ?_⟩
  generalize (run ⟨[], 0⟩ ops).1 = t at hmid hh
  have h0 : ¬ b.boff = 0 := by rw [hh.boff]; exact hmid
  have key : ∀ inp : List Nat, (∀ x ∈ inp, x < 256) → ∃ out, Bits.storeLoop b.boff inp b.bsa = .ok out ∧
      out = pack (t.bits ++ bitsOf inp) := by
    intro inp hinp
    obtain ⟨b', he', hh'⟩ := holdsC_storeBytes hh inp hinp
    unfold storeBytes at he'
    rw [if_neg h0] at he'
    cases hs : Bits.storeLoop b.boff inp b.bsa with
    | error e => rw [hs] at he'; cases he'
    | ok out =>
      rw [hs] at he'
      refine ⟨out, rfl, ?_⟩
      rw [← show (t.write (bitsOf inp)).bits = t.bits ++ bitsOf inp from rfl, ← hh'.packed, ← Except.ok.inj he']
  refine ⟨fun hv => ?_, fun hv => ?_, fun hv => ?_⟩
  · obtain ⟨out, e1, e2⟩ := key [v] (by simpa using hv)
    refine ⟨_, by simp only [storeBits8, h0, if_false, e1, bind, Except.bind]; rfl, ?_, by simp only [hh.num]⟩
    simp only [e2, bitsOf, List.flatMap_cons, List.flatMap_nil, List.append_nil]
    rfl
  · obtain ⟨out, e1, e2⟩ := key [(v >>> 8) % 256, v &&& 255] (by
      simp only [List.mem_cons, List.not_mem_nil, or_false]
      rintro x (rfl | rfl)
      · omega
      · exact Bits.and_lt _)
    refine ⟨_, by simp only [storeBits16, h0, if_false, e1, bind, Except.bind]; rfl, ?_, by simp only [hh.num]⟩
    simp only [e2, bitsOf, List.flatMap_cons, List.flatMap_nil, List.append_nil]
    congr 2
    simp only [byteBits]
    rw [Bits.natBits_add 8 8]
    simp only [Nat.shiftRight_eq_div_pow, show (256 : Nat) = 2 ^ 8 by rfl, show (255 : Nat) = 2 ^ 8 - 1 by rfl,
      Nat.and_two_pow_sub_one_eq_mod, Bits.natBits_mod]
  · obtain ⟨out, e1, e2⟩ := key [(v >>> 24) % 256, 255 &&& (v >>> 16), 255 &&& (v >>> 8), 255 &&& v] (by
      simp only [List.mem_cons, List.not_mem_nil, or_false]
      rintro x (rfl | rfl | rfl | rfl)
      · omega
      all_goals exact Bits.and_lt' _)
    refine ⟨_, by simp only [storeBits32, h0, if_false, e1, bind, Except.bind]; rfl, ?_, by simp only [hh.num]⟩
    simp only [e2, bitsOf, List.flatMap_cons, List.flatMap_nil, List.append_nil]
    congr 2
    simp only [byteBits]
    rw [Bits.natBits_add 8 24, Bits.natBits_add 8 16, Bits.natBits_add 8 8]
    simp only [Nat.shiftRight_eq_div_pow, show (256 : Nat) = 2 ^ 8 by rfl, show (255 : Nat) = 2 ^ 8 - 1 by rfl,
      Nat.and_comm (2 ^ 8 - 1), Nat.and_two_pow_sub_one_eq_mod, Bits.natBits_mod]

example : (run ⟨[], 0⟩ [.bit true, .bits [0xa8] 5]).1.bits.length % 8 ≠ 0 := by decide

/-- C88: on a byte boundary (which includes the empty bucket) the three methods append their bytes but
do not count them, whatever was stored before. -/
theorem C88_boundary (ops : List Op) (hops : LegalAll ⟨[], 0⟩ ops) (v : Nat)
    (hend : (run ⟨[], 0⟩ ops).1.bits.length % 8 = 0) :
    ∃ b rs b', calls BB.empty ops = .ok (b, rs) ∧ storeBits8 b v = .ok b' ∧ b'.bsa = b.bsa ++ [v] ∧
      b'.numBits = b.numBits ∧
      (∀ w, ∃ b2, storeBits16 b w = .ok b2 ∧ b2.bsa = b.bsa ++ [w / 2 ^ 8 % 256, w % 256] ∧ b2.numBits = b.numBits) ∧
      (∀ w, ∃ b2, storeBits32 b w = .ok b2 ∧
        b2.bsa = b.bsa ++ [w / 2 ^ 24 % 256, w / 2 ^ 16 % 256, w / 2 ^ 8 % 256, w % 256] ∧ b2.numBits = b.numBits) ∧
      -- the next bit falls into the byte just stored
      (∀ bit, ∃ b2, storeBit b' bit = .ok b2 ∧ b2.bsa = b.bsa ++ [v ||| bit.toNat * 128]) := by
  obtain ⟨b, he, hh⟩ := calls_spec ops holdsC_empty hops
  generalize (run ⟨[], 0⟩ ops).1 = t at hend hh
  have h0 : b.boff = 0 := by rw [hh.boff]; exact hend
  have hlen := hh.length
  have hnum := hh.num
  refine ⟨b, _, { b with bsa := b.bsa ++ [v] }, he, by simp [storeBits8, h0, pure, Except.pure], rfl, rfl,
    fun w => ⟨{ b with bsa := b.bsa ++ [(w >>> 8) % 256, (w &&& 255) % 256] },
      by simp only [storeBits16, h0, if_true]; rfl, ?_, rfl⟩,
    fun w => ⟨{ b with bsa := b.bsa ++ [(w >>> 24) % 256, 255 &&& (w >>> 16), 255 &&& (w >>> 8), 255 &&& w] },
      by simp only [storeBits32, h0, if_true]; rfl, ?_, rfl⟩, fun bit => ?_⟩
  · simp only [Nat.shiftRight_eq_div_pow, show (255 : Nat) = 2 ^ 8 - 1 by rfl, Nat.and_two_pow_sub_one_eq_mod]
    rw [show (256 : Nat) = 2 ^ 8 by rfl, Nat.mod_mod]
  · simp only [Nat.shiftRight_eq_div_pow, show (255 : Nat) = 2 ^ 8 - 1 by rfl, Nat.and_comm (2 ^ 8 - 1),
      Nat.and_two_pow_sub_one_eq_mod]
  have hnot : ¬ (b.numBits + 1 + 7) / 8 > (b.bsa ++ [v]).length := by
    simp only [List.length_append, List.length_singleton]
    omega
  refine ⟨_, by
    simp only [storeBit, hnot, if_false, Bits.onLast_append, bind, Except.bind]
    rfl, ?_⟩
  simp only [h0, Nat.sub_zero]
  cases bit <;> rfl

example : (run ⟨[], 0⟩ [.bytes [3], .bit true, .bits [0xfe] 7]).1.bits.length % 8 = 0 := by decide

/-- C88: so they do not do what StoreBits does with the same bits. -/
theorem C88_false : ¬ ∀ (v : Nat) (bit : Bool) (b1 b2 b3 b4 : BB), v < 256 →
    storeBits8 BB.empty v = .ok b1 → storeBit b1 bit = .ok b2 →
    storeBits BB.empty [v] 8 = .ok b3 → storeBit b3 bit = .ok b4 → b2.bsa = b4.bsa := by
  intro h
  have h1 : storeBits8 BB.empty 5 = .ok ⟨[5], 0, 0, 0, 0⟩ := by rfl
  have h2 : storeBit ⟨[5], 0, 0, 0, 0⟩ true = .ok ⟨[133], 1, 0, 0, 1⟩ := by decide
  have h3 : storeBits BB.empty [5] 8 = .ok ⟨[5], 0, 0, 0, 8⟩ := by decide
  have h4 : storeBit ⟨[5], 0, 0, 0, 8⟩ true = .ok ⟨[5, 128], 1, 0, 0, 9⟩ := by decide
  exact absurd (h 5 true _ _ _ _ (by decide) h1 h2 h3 h4) (by decide)

/-- C89: GetBits aborts if it is asked for more bits than were ever stored; up to the bits that are
left it delivers them (`C87_tape`). -/
theorem C89_total_partial (ops : List Op) (hops : LegalAll ⟨[], 0⟩ ops) (ret : List Nat) (n : Nat)
    (hn : (run ⟨[], 0⟩ ops).1.bits.length < n) :
    ∃ b rs, calls BB.empty ops = .ok (b, rs) ∧ getBits b ret n = .error .assertion := by
  obtain ⟨b, he, hh⟩ := calls_spec ops holdsC_empty hops
  refine ⟨b, _, he, ?_⟩
  unfold getBits
  rw [if_pos (by rw [hh.num]; exact hn)]

example : (run ⟨[], 0⟩ [.bit true, .bits [0xa8] 5]).1.bits.length < 7 := by decide

/-- C89: but what has been read already is not taken off: whatever whole bytes were stored and read,
reading as many again goes outside the vector. -/
theorem C89_outside (bytes : List Nat) (hb : ∀ x ∈ bytes, x < 256) (n : Nat) (h0 : 0 < n) (hn : n ≤ 8 * bytes.length) :
    ∃ b, calls BB.empty [.bytes bytes, .get (8 * bytes.length)] = .ok (b, [.none, .bytes bytes]) ∧
      getBits b [] n = .error .index := by
  have hl : LegalAll ⟨[], 0⟩ [.bytes bytes, .get (8 * bytes.length)] := by
    refine ⟨hb, ?_, trivial⟩
    simp [Legal, step, Tape.write]
  obtain ⟨b, he, hh⟩ := calls_spec _ holdsC_empty hl
  have hrun : run ⟨[], 0⟩ [.bytes bytes, .get (8 * bytes.length)] =
      (⟨bitsOf bytes, 8 * bytes.length⟩, [.none, .bytes bytes]) := by
    simp only [run, step, Tape.write, List.nil_append, Nat.zero_add, List.drop_zero, Prod.mk.injEq, List.cons.injEq,
      true_and, and_true, Res.bytes.injEq]
    rw [List.take_of_length_le (by simp)]
    exact (Bits.pack_unique _ _ hb (by simp [padZeros])).symm
  rw [hrun] at he hh
  refine ⟨b, he, ?_⟩
  have hnum := hh.num
  have hpos := hh.pos
  have hlen := hh.length
  have hlt := hh.lt
  simp only [Bits.bitsOf_length] at hnum hpos hlen
  have hz : b.idxBoff = 0 := by omega
  unfold getBits
  rw [if_neg (by omega)]
  simp only [hz, if_true]
  rw [if_pos (by omega)]
  rfl

example : getBits ⟨[7, 9], 0, 2, 0, 16⟩ [] 3 = .error .index := by decide

/-- C89: and inside the last byte it returns bits that were never stored, without a word. -/
theorem C89_false : ¬ ∀ (ops : List Op) (n : Nat) (b : BB) (rs : List Res), LegalAll ⟨[], 0⟩ ops →
    calls BB.empty ops = .ok (b, rs) → (run ⟨[], 0⟩ ops).1.bits.length < (run ⟨[], 0⟩ ops).1.pos + n →
    getBits b [] n = .error .assertion := by
  intro h
  have := h [.bits [0xe0] 3, .get 2] 3 ⟨[0xe0], 3, 0, 2, 3⟩ [.none, .bytes [0xc0]]
    (by simp [LegalAll, Legal, step, Tape.write]) (by decide) (by decide)
  exact absurd this (by decide)

end Verif.Props
