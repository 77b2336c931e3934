import Verif.Bits.Run
/-
Properties C13-C16: the bit bucket.
-/
namespace Verif.Props
open Verif Verif.Bits Verif.Bits.Spec

/-- C13: any sequence of calls on a new bit bucket returns, call for call, what the tape returns
on which stores append, reads take the next bits (or raise and change nothing), padding appends
zeros and advancing skips to the next multiple of eight. -/
theorem C13_bit_queue (ops : List Op) (hops : ∀ op ∈ ops, op.Ok) :
    (calls BitBucket.empty ops).2 = (run ⟨[], 0⟩ ops).2 :=
  (calls_sim ops hops holds_empty).1

/-- C13: at any time GetAllBits is everything written, in order: NumBits is its length and the
bytes are its bits followed by zeros; BytesOfStorage is the number of bytes. -/
theorem C13_all_bits (ops : List Op) (hops : ∀ op ∈ ops, op.Ok) :
    bitsOf (calls BitBucket.empty ops).1.output =
      (run ⟨[], 0⟩ ops).1.bits ++ padZeros (run ⟨[], 0⟩ ops).1.bits.length ∧
    numBits (calls BitBucket.empty ops).1 = (run ⟨[], 0⟩ ops).1.bits.length ∧
    bytesOfStorage (calls BitBucket.empty ops).1 = (calls BitBucket.empty ops).1.output.length := by
  have h := (calls_sim ops hops holds_empty).2.rep
  refine ⟨h.content, h.numBits, ?_⟩
  have := h.length
  unfold bytesOfStorage
  rw [h.numBits]
  omega

/-- What was stored since the beginning comes back when read with the same widths: the case of one
string of bits written after anything and read after everything before it was read. -/
theorem C13_store_get (ops : List Op) (hops : ∀ op ∈ ops, op.Ok) (bytes : List Nat) (n : Nat)
    (hok : (Op.store bytes n).Ok) (hall : (run ⟨[], 0⟩ ops).1.pos = (run ⟨[], 0⟩ ops).1.bits.length) :
    ∃ b out, getBits (call (calls BitBucket.empty ops).1 (.store bytes n)).1 n = .ok (b, out) ∧
      (bitsOf out).take n = (bitsOf bytes).take n ∧ out.length = bytes.length ∧ allConsumed b := by
  have h := (calls_sim ops hops holds_empty).2
  obtain ⟨h1, h2⟩ := call_sim h (.store bytes n) hok
  set t := (run ⟨[], 0⟩ ops).1
  simp only [step] at h2
  have hlen : ((bitsOf bytes).take n).length = n := by
    have := hok.2
    simp
    omega
  obtain ⟨b, he, hh⟩ := (holds_get h2 n).2 (by simp [Tape.write, hall]; have := hok.2; omega)
  refine ⟨b, _, he, ?_, ?_, ?_⟩
  · simp only [Tape.write, hall, List.drop_left]
    rw [List.take_of_length_le (by omega : ((bitsOf bytes).take n).length ≤ n)]
    have := bits_pack ((bitsOf bytes).take n)
    rw [this, List.take_append_of_le_length (by omega), List.take_take, Nat.min_self]
  · have := bits_pack (((t.write ((bitsOf bytes).take n)).bits.drop (t.write ((bitsOf bytes).take n)).pos).take n)
    have := congrArg List.length this
    have := hok.2
    simp [Tape.write, hall, padZeros] at *
    omega
  · have hn := hh.rep.numBits
    have hp := hh.pos
    simp only [Tape.write] at hn hp
    unfold allConsumed
    rw [hn]
    simp [List.length_append, hlen]
    omega

/-- The hypotheses of the three theorems are met by a run crossing byte boundaries at odd offsets. -/
example : (∀ op ∈ [Op.storeBit true, .store [0xAB, 0xC0] 10, .getBit, .get 3, .pad, .get 20, .store16 0xBEEF, .get8],
      op.Ok) ∧
    (calls BitBucket.empty
      [Op.storeBit true, .store [0xAB, 0xC0] 10, .getBit, .get 3, .pad, .get 20, .store16 0xBEEF, .get8]).2 =
    [.none, .none, .num 1, .bytes [0xA0] 3, .none, .raised .standard, .none, .num 0x5E] := by
  refine ⟨by simp [Op.Ok], by decide +kernel⟩

example : (run ⟨[], 0⟩ [Op.storeBit true, .store4 5, .get 5]).1.pos =
    (run ⟨[], 0⟩ [Op.storeBit true, .store4 5, .get 5]).1.bits.length := by decide

/-- The bits a bucket holds. -/
def contents (b : BitBucket) : List Bool := (bitsOf b.output).take (numBits b).toNat

/-- A bucket after any calls, with any numbers of bits requested to be stored. -/
inductive Reachable : BitBucket → Prop where
  | empty : Reachable BitBucket.empty
  | call {b : BitBucket} (op : Op) (h : Reachable b) (hb : ∀ bytes n, op = .store bytes n → ∀ x ∈ bytes, x < 256) :
      Reachable (call b op).1
  | store22 {b b' : BitBucket} (v : Nat) (h : Reachable b) (hb : storeBits22 b v = .ok b') : Reachable b'

theorem holds_store22 {b b' : BitBucket} {t : Tape} (h : Holds b t) (v : Nat) (he : storeBits22 b v = .ok b') :
    v < 2 ^ 32 ∧ Holds b' (t.write ((natBits 32 v).take 30)) := by
  unfold storeBits22 packL at he
  by_cases hv : v < 4294967296
  · simp only [hv, if_true, bind, Except.bind] at he
    obtain ⟨b'', he', hr, h1, h2⟩ := storeBits_spec h.rep [v / 16777216, v / 65536 % 256, v / 256 % 256, v % 256] 22
      (by simp) (by
        intro x hx
        simp only [List.mem_cons, List.not_mem_nil, or_false] at hx
        omega)
    rw [he'] at he
    cases he
    rw [bits_packL] at hr
    exact ⟨hv, hr, by rw [h1, h2]; exact h.pos, by rw [h2]; exact h.lt⟩
  · simp [hv, bind, Except.bind] at he

theorem Reachable.holds {b : BitBucket} (h : Reachable b) : ∃ t, Holds b t := by
  induction h with
  | empty => exact ⟨_, holds_empty⟩
  | @call b op _ hb ih =>
    obtain ⟨t, ht⟩ := ih
    by_cases hop : op.Ok
    · exact ⟨_, (call_sim ht op hop).2⟩
    · cases op with
      | store bytes n =>
        by_cases hne : bytes = []
        · subst hne
          exact ⟨t, ht⟩
        · obtain ⟨b', he, hr, h1, h2⟩ := storeBits_spec ht.rep bytes n hne (hb bytes n rfl)
          simp only [Verif.Bits.call, he, applyStore]
          exact ⟨⟨_, t.pos⟩, hr, by rw [h1, h2]; exact ht.pos, by rw [h2]; exact ht.lt⟩
      | _ => exact absurd trivial hop
  | store22 v _ he ih =>
    obtain ⟨t, ht⟩ := ih
    exact ⟨_, (holds_store22 ht v he).2⟩

theorem contents_eq {b : BitBucket} {bits : List Bool} (h : Rep b bits) : contents b = bits := by
  unfold contents
  rw [h.numBits, h.content]
  simp

/-- C14: whatever was done before, storing the bits of as many bytes as they need appends exactly
those bits, keeps what was stored and never raises. -/
theorem C14_store_exact {b : BitBucket} (hb : Reachable b) (bytes : List Nat) (n : Nat)
    (hby : ∀ x ∈ bytes, x < 256) (hlen : bytes.length = (n + 7) / 8) :
    ∃ b', storeBits b bytes n = .ok b' ∧ contents b' = contents b ++ (bitsOf bytes).take n ∧
      numBits b' = numBits b + n := by
  obtain ⟨t, ht⟩ := hb.holds
  obtain ⟨b', he, hh⟩ := holds_store ht bytes n hby hlen
  refine ⟨b', he, by rw [contents_eq hh.rep, contents_eq ht.rep]; rfl, ?_⟩
  rw [hh.rep.numBits, ht.rep.numBits]
  simp [Tape.write]
  omega

/-- C14: with any number of bytes, only `n` modulo 8 matters: the last byte contributes
`(n - 1) mod 8 + 1` bits and all others eight. -/
theorem C14_store_any {b : BitBucket} (hb : Reachable b) (bytes : List Nat) (n : Nat)
    (hby : ∀ x ∈ bytes, x < 256) (hne : bytes ≠ []) :
    ∃ b', storeBits b bytes n = .ok b' ∧
      contents b' = contents b ++ (bitsOf bytes).take (8 * (bytes.length - 1) + ((n + 7) % 8 + 1)) ∧
      numBits b' = numBits b + (8 * (bytes.length - 1) + ((n + 7) % 8 + 1) : Nat) := by
  obtain ⟨t, ht⟩ := hb.holds
  obtain ⟨b', he, hr, -, -⟩ := storeBits_spec ht.rep bytes n hne hby
  have hl : leftoverBits n = (n + 7) % 8 + 1 := by unfold leftoverBits; split <;> omega
  have hpos : 0 < bytes.length := List.length_pos_iff.2 hne
  rw [hl] at hr
  refine ⟨b', he, by rw [contents_eq hr, contents_eq ht.rep], ?_⟩
  rw [hr.numBits, ht.rep.numBits]
  simp
  omega

example : Reachable (calls BitBucket.empty [.storeBit true]).1 ∧
    contents (calls BitBucket.empty [.storeBit true]).1 = [true] ∧
    (storeBits (calls BitBucket.empty [.storeBit true]).1 [1, 2, 3] 4).map contents =
      .ok ([true] ++ (bitsOf [1, 2, 3]).take 20) := by
  refine ⟨.call _ .empty (by simp), by decide +kernel, by decide +kernel⟩

/-- C15: BitsRemaining is always one less than the number of unread bits. -/
theorem C15_bits_remaining_partial (ops : List Op) (hops : ∀ op ∈ ops, op.Ok) :
    bitsRemaining (calls BitBucket.empty ops).1 =
      ((run ⟨[], 0⟩ ops).1.bits.length : Int) - (run ⟨[], 0⟩ ops).1.pos - 1 := by
  have h := (calls_sim ops hops holds_empty).2
  unfold bitsRemaining
  rw [h.rep.numBits, h.pos]
  push_cast
  rfl

/-- C15: so it is never the number of unread bits while none is read past the end; with an empty
bucket it is -1. -/
theorem C15_bits_remaining_false : ∃ ops : List Op, (∀ op ∈ ops, op.Ok) ∧
    ((run ⟨[], 0⟩ ops).1.bits.drop (run ⟨[], 0⟩ ops).1.pos).length = 8 ∧
    bitsRemaining (calls BitBucket.empty ops).1 = 7 :=
  ⟨[.store8 5], by simp [Op.Ok], by decide +kernel, by decide +kernel⟩

/-- C15: AllConsumed says whether no unread bit is left. -/
theorem C15_all_consumed (ops : List Op) (hops : ∀ op ∈ ops, op.Ok) :
    allConsumed (calls BitBucket.empty ops).1 = true ↔
      (run ⟨[], 0⟩ ops).1.bits.drop (run ⟨[], 0⟩ ops).1.pos = [] := by
  have h := (calls_sim ops hops holds_empty).2
  unfold allConsumed
  rw [h.rep.numBits, List.drop_eq_nil_iff, h.pos, decide_eq_true_iff]
  omega

example : allConsumed (calls BitBucket.empty [.store8 5, .get 7]).1 = false ∧
    allConsumed (calls BitBucket.empty [.store8 5, .get 7, .getBit]).1 = true := by decide

/-- C16: StoreBits22 appends the 30 most significant bits of the 32-bit value. -/
theorem C16_store22_partial {b : BitBucket} (hb : Reachable b) (v : Nat) (hv : v < 2 ^ 32) :
    ∃ b', storeBits22 b v = .ok b' ∧ contents b' = contents b ++ natBits 30 (v / 4) := by
  obtain ⟨t, ht⟩ := hb.holds
  have hv' : v < 4294967296 := hv
  obtain ⟨b', he, hr, -, -⟩ := storeBits_spec ht.rep [v / 16777216, v / 65536 % 256, v / 256 % 256, v % 256] 22
    (by simp) (by
      intro x hx
      simp only [List.mem_cons, List.not_mem_nil, or_false] at hx
      omega)
  rw [bits_packL] at hr
  have h22 : storeBits22 b v = .ok b' := by simp [storeBits22, packL, hv', he, bind, Except.bind]
  refine ⟨b', h22, ?_⟩
  rw [contents_eq hr, contents_eq ht.rep]
  congr 1
  have := natBits_add 30 2 v
  rw [show natBits 32 v = natBits (30 + 2) v from rfl, this]
  exact List.take_left' (by simp [leftoverBits])

/-- C16: values differing only in the two lowest bits cannot be told apart. -/
theorem C16_store22_lossy {b : BitBucket} (hb : Reachable b) (v w : Nat) (hv : v < 2 ^ 32) (hw : w < 2 ^ 32)
    (h : v / 4 = w / 4) :
    ∃ b₁ b₂, storeBits22 b v = .ok b₁ ∧ storeBits22 b w = .ok b₂ ∧ contents b₁ = contents b₂ := by
  obtain ⟨b₁, h₁, c₁⟩ := C16_store22_partial hb v hv
  obtain ⟨b₂, h₂, c₂⟩ := C16_store22_partial hb w hw
  exact ⟨b₁, b₂, h₁, h₂, by rw [c₁, c₂, h]⟩

/-- C16: in particular the 22 low bits are not what is stored: 5 comes out as thirty bits ending in
the bits of 1. -/
theorem C16_store22_false : ∃ b', storeBits22 BitBucket.empty 5 = .ok b' ∧
    contents b' = natBits 30 1 ∧ contents b' ≠ natBits 22 5 :=
  ⟨_, rfl, by decide +kernel, by decide +kernel⟩

end Verif.Props
