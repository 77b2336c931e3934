import Verif.Delta1.Wire
import Verif.Delta1.HuffLemmas
import Verif.Delta2.WireLemmas
/-
delta's serialiser and deserialiser: what is written, and that it is read back.
-/
namespace Verif.Delta1
open Verif Verif.Bits Verif.Bits.Spec Verif.Huff Verif.Huff.Spec Verif.Delta2

/-- The values of an operation can be packed: indices of 16 bits, strings of bytes. -/
def OpOk : Op → Prop
  | .toggl i => i < 2 ^ 16
  | .trang s l => s < 2 ^ 16 ∧ l < 2 ^ 16
  | .clone k v => k < 2 ^ 16 ∧ ∀ c ∈ v, c < 256
  | .kvsto k v => (∀ c ∈ k, c < 256) ∧ ∀ c ∈ v, c < 256
  | .eref k v => (∀ c ∈ k, c < 256) ∧ ∀ c ∈ v, c < 256

/-- The bits of a string. -/
def strB (codes : List (List Bool)) (s : Str) : List Bool := strBits codes true 0 s

theorem strB_len (codes : List (List Bool)) (s : Str) : (strB codes s).length % 8 = 0 := by
  simp only [strB, strBits, if_true, List.length_append, padZeros, List.length_replicate, Nat.zero_add]
  omega

theorem int_writes {b : BitBucket} {bits : List Bool} (h : Wrote b bits) {v : Nat} (hv : v < 2 ^ 16) :
    ∃ b', packInt b 16 v = .ok b' ∧ Wrote b' (bits ++ natBits 16 v) := by
  have := packInt_spec 16 v (by omega) (by omega) h
  rw [if_neg (by rw [Nat.testBit_lt_two_pow hv]; simp), if_pos (.inl hv)] at this
  exact this

theorem int_reads {b : BitBucket} {pre rest : List Bool} {v : Nat} (hv : v < 2 ^ 16)
    (h : At b pre (natBits 16 v ++ rest)) :
    ∃ b', unpackInt b 16 = .ok (b', v) ∧ At b' (pre ++ natBits 16 v) rest := by
  have := unpackInt_spec 16 v (by omega) (by omega) h
  rwa [Nat.mod_eq_of_lt hv] at this

theorem str_writes {h : Huffman} {codes : List (List Bool)} (hc : Codes h codes) (h257 : codes.length = 257) {s : Str}
    (hs : ∀ c ∈ s, c < 256) {b : BitBucket} {bits : List Bool} (hw : Wrote b bits) :
    ∃ b', packStr h b s = .ok b' ∧ Wrote b' (bits ++ strB codes s) := by
  have e := encode_spec hc s (fun c hcs => by have := hs c hcs; omega) true (fun _ => by omega)
  simp only [if_true] at e
  obtain ⟨b', e2, w⟩ := wrote_bytes hw (pack (textBits codes (s ++ [256]))) (pack_lt _)
  refine ⟨b', ?_, ?_⟩
  · simp only [packStr, bind, Except.bind, e]
    rw [Nat.mul_comm]
    exact e2
  · rw [bits_pack] at w
    simpa [strB, strBits] using w

theorem str_reads {h : Huffman} {codes : List (List Bool)} (hc : Codes h codes) (h257 : codes.length = 257) {s : Str}
    (hs : ∀ c ∈ s, c < 256) {b : BitBucket} {pre rest : List Bool} (hp : pre.length % 8 = 0)
    (ha : At b pre (strB codes s ++ rest)) :
    ∃ b', unpackStr (some h) true true b = .ok (b', s) ∧ At b' (pre ++ strB codes s) rest := by
  have hE : strB codes s = strBits codes true pre.length s := by
    have := strE_aligned codes s 0 pre.length (by omega)
    exact this
  rw [hE] at ha ⊢
  exact unpackStr_spec hc h257 true s hs ha

/-- The bits of an operation. -/
def opB (codes : List (List Bool)) : Op → List Bool
  | .toggl i => natBits 16 i
  | .trang s l => natBits 16 l ++ natBits 16 s
  | .clone k v => natBits 16 k ++ strB codes v
  | .kvsto k v => strB codes k ++ strB codes v
  | .eref k v => strB codes k ++ strB codes v

theorem opB_len (codes : List (List Bool)) (op : Op) : (opB codes op).length % 8 = 0 := by
  cases op with
  | toggl i => simp [opB]
  | trang s l => simp [opB]
  | clone k v => have := strB_len codes v; simp only [opB, List.length_append, natBits_length]; omega
  | kvsto k v =>
    have := strB_len codes v
    have := strB_len codes k
    simp only [opB, List.length_append]
    omega
  | eref k v =>
    have := strB_len codes v
    have := strB_len codes k
    simp only [opB, List.length_append]
    omega

theorem strB_pos {h : Huffman} {codes : List (List Bool)} (hc : Codes h codes) (h257 : codes.length = 257) {s : Str}
    (hs : ∀ c ∈ s, c < 256) : 8 ≤ (strB codes s).length := by
  have h1 := strE_len hc h257 s hs 0
  have h2 := strB_len codes s
  have h3 : strE codes s 0 = strB codes s := rfl
  rw [h3] at h1
  omega

theorem opB_pos {h : Huffman} {codes : List (List Bool)} (hc : Codes h codes) (h257 : codes.length = 257) {op : Op}
    (ho : OpOk op) : 16 ≤ (opB codes op).length := by
  cases op with
  | toggl i => simp [opB]
  | trang s l => simp [opB]
  | clone k v => simp [opB]
  | kvsto k v =>
    have := strB_pos hc h257 ho.1
    have := strB_pos hc h257 ho.2
    simp only [opB, List.length_append]
    omega
  | eref k v =>
    have := strB_pos hc h257 ho.1
    have := strB_pos hc h257 ho.2
    simp only [opB, List.length_append]
    omega

theorem op_writes {h : Huffman} {codes : List (List Bool)} (hc : Codes h codes) (h257 : codes.length = 257) {op : Op}
    (ho : OpOk op) {b : BitBucket} {bits : List Bool} (hw : Wrote b bits) :
    ∃ b', writeOp h b op = .ok b' ∧ Wrote b' (bits ++ opB codes op) := by
  cases op with
  | toggl i => exact int_writes hw ho
  | trang s l =>
    obtain ⟨b1, e1, w1⟩ := int_writes hw ho.2
    obtain ⟨b2, e2, w2⟩ := int_writes w1 ho.1
    exact ⟨b2, by simp only [writeOp, bind, Except.bind, e1, e2], by simpa [opB] using w2⟩
  | clone k v =>
    obtain ⟨b1, e1, w1⟩ := int_writes hw ho.1
    obtain ⟨b2, e2, w2⟩ := str_writes hc h257 ho.2 w1
    exact ⟨b2, by simp only [writeOp, bind, Except.bind, e1, e2], by simpa [opB] using w2⟩
  | kvsto k v =>
    obtain ⟨b1, e1, w1⟩ := str_writes hc h257 ho.1 hw
    obtain ⟨b2, e2, w2⟩ := str_writes hc h257 ho.2 w1
    exact ⟨b2, by simp only [writeOp, bind, Except.bind, e1, e2], by simpa [opB] using w2⟩
  | eref k v =>
    obtain ⟨b1, e1, w1⟩ := str_writes hc h257 ho.1 hw
    obtain ⟨b2, e2, w2⟩ := str_writes hc h257 ho.2 w1
    exact ⟨b2, by simp only [writeOp, bind, Except.bind, e1, e2], by simpa [opB] using w2⟩

theorem op_reads {h : Huffman} {codes : List (List Bool)} (hc : Codes h codes) (h257 : codes.length = 257) {op : Op}
    (ho : OpOk op) {b : BitBucket} {pre rest : List Bool} (hp : pre.length % 8 = 0) (ha : At b pre (opB codes op ++ rest)) :
    ∃ b', readOp h b op.opcode = .ok (b', op) ∧ At b' (pre ++ opB codes op) rest := by
  cases op with
  | toggl i =>
    obtain ⟨b1, e1, w1⟩ := int_reads ho ha
    exact ⟨b1, by simp only [readOp, Op.opcode, bind, Except.bind, e1, pure, Except.pure], w1⟩
  | trang s l =>
    simp only [opB, List.append_assoc] at ha
    obtain ⟨b1, e1, w1⟩ := int_reads ho.2 ha
    obtain ⟨b2, e2, w2⟩ := int_reads ho.1 w1
    exact ⟨b2, by simp only [readOp, Op.opcode, bind, Except.bind, e1, e2, pure, Except.pure],
      by simpa [opB] using w2⟩
  | clone k v =>
    simp only [opB, List.append_assoc] at ha
    obtain ⟨b1, e1, w1⟩ := int_reads ho.1 ha
    obtain ⟨b2, e2, w2⟩ := str_reads hc h257 ho.2 (by simp; omega) w1
    exact ⟨b2, by simp only [readOp, Op.opcode, bind, Except.bind, e1, e2, pure, Except.pure],
      by simpa [opB] using w2⟩
  | kvsto k v =>
    simp only [opB, List.append_assoc] at ha
    obtain ⟨b1, e1, w1⟩ := str_reads hc h257 ho.1 hp ha
    have := strB_len codes k
    obtain ⟨b2, e2, w2⟩ := str_reads hc h257 ho.2 (by simp only [List.length_append]; omega) w1
    exact ⟨b2, by simp only [readOp, Op.opcode, bind, Except.bind, e1, e2, pure, Except.pure],
      by simpa [opB] using w2⟩
  | eref k v =>
    simp only [opB, List.append_assoc] at ha
    obtain ⟨b1, e1, w1⟩ := str_reads hc h257 ho.1 hp ha
    have := strB_len codes k
    obtain ⟨b2, e2, w2⟩ := str_reads hc h257 ho.2 (by simp only [List.length_append]; omega) w1
    exact ⟨b2, by simp only [readOp, Op.opcode, bind, Except.bind, e1, e2, pure, Except.pure],
      by simpa [opB] using w2⟩

/-- The bits of some operations. -/
def opsB (codes : List (List Bool)) (ops : List Op) : List Bool := ops.flatMap (opB codes)

theorem opsB_len (codes : List (List Bool)) (ops : List Op) : (opsB codes ops).length % 8 = 0 := by
  induction ops with
  | nil => rfl
  | cons op ops ih =>
    have := opB_len codes op
    simp only [opsB, List.flatMap_cons, List.length_append] at ih ⊢
    omega

theorem ops_write {h : Huffman} {codes : List (List Bool)} (hc : Codes h codes) (h257 : codes.length = 257) (ops : List Op) :
    (∀ op ∈ ops, OpOk op) → ∀ {b : BitBucket} {bits : List Bool}, Wrote b bits →
    ∃ b', writeOps h ops b = .ok b' ∧ Wrote b' (bits ++ opsB codes ops) := by
  induction ops with
  | nil => intro _ b bits hw; exact ⟨b, rfl, by simpa [opsB] using hw⟩
  | cons op ops ih =>
    intro ho b bits hw
    obtain ⟨b1, e1, w1⟩ := op_writes hc h257 (ho op (by simp)) hw
    obtain ⟨b2, e2, w2⟩ := ih (fun o h => ho o (by simp [h])) w1
    exact ⟨b2, by simp only [writeOps, bind, Except.bind, e1, e2], by simpa [opsB] using w2⟩

theorem ops_read {h : Huffman} {codes : List (List Bool)} (hc : Codes h codes) (h257 : codes.length = 257) (oc : Opcode)
    (ops : List Op) : (∀ op ∈ ops, OpOk op) → (∀ op ∈ ops, op.opcode = oc) → ∀ (acc : List Op) {b : BitBucket}
    {pre rest : List Bool}, pre.length % 8 = 0 → At b pre (opsB codes ops ++ rest) →
    ∃ b', readOps h oc ops.length b acc = .ok (b', acc ++ ops) ∧ At b' (pre ++ opsB codes ops) rest := by
  induction ops with
  | nil => intro _ _ acc b pre rest _ ha; exact ⟨b, by simp [readOps], by simpa [opsB] using ha⟩
  | cons op ops ih =>
    intro ho hoc acc b pre rest hp ha
    simp only [opsB, List.flatMap_cons, List.append_assoc] at ha
    obtain ⟨b1, e1, w1⟩ := op_reads hc h257 (ho op (by simp)) hp ha
    have hl := opB_len codes op
    obtain ⟨b2, e2, w2⟩ := ih (fun o h => ho o (by simp [h])) (fun o h => hoc o (by simp [h])) (acc ++ [op])
      (by simp only [List.length_append]; omega) w1
    refine ⟨b2, ?_, by simpa [opsB] using w2⟩
    rw [hoc op (by simp)] at e1
    simp only [List.length_cons, readOps, bind, Except.bind, e1, e2, List.append_assoc, List.singleton_append]

/-- The bits of operations of one kind. -/
def blockB (codes : List (List Bool)) (blk : Opcode × List Op) : List Bool :=
  if blk.2.length = 0 then []
  else natBits 8 blk.1.val ++ natBits 8 (min 256 blk.2.length - 1) ++ opsB codes blk.2

theorem blockB_len (codes : List (List Bool)) (blk : Opcode × List Op) : (blockB codes blk).length % 8 = 0 := by
  have := opsB_len codes blk.2
  unfold blockB
  split
  · rfl
  · simp only [List.length_append, natBits_length]; omega

/-- All operations have the right opcode and can be packed. -/
def GroupsOk (gs : List (Opcode × List Op)) : Prop := ∀ g ∈ gs, ∀ op ∈ g.2, op.opcode = g.1 ∧ OpOk op

theorem val_lt (oc : Opcode) : oc.val < 2 ^ 8 := by cases oc <;> decide

theorem opcodeOf_val (oc : Opcode) : opcodeOf oc.val = some oc := by cases oc <;> rfl

theorem outputOps_writes {h : Huffman} {codes : List (List Bool)} (hc : Codes h codes) (h257 : codes.length = 257)
    (oc : Opcode) (ops : List Op) (ho : ∀ op ∈ ops, OpOk op) {b : BitBucket} {bits : List Bool} (hw : Wrote b bits) :
    ∃ b', outputOps h oc ops b = .ok b' ∧ Wrote b' (bits ++ blockB codes (oc, ops)) := by
  unfold outputOps blockB
  by_cases h0 : ops.length = 0
  · rw [if_pos h0, if_pos h0]
    exact ⟨b, rfl, by simpa using hw⟩
  · rw [if_neg h0, if_neg h0]
    obtain ⟨b1, e1, w1⟩ := wrote_8 hw (val_lt oc)
    obtain ⟨b2, e2, w2⟩ := wrote_8 w1 (v := min 256 ops.length - 1) (by omega)
    obtain ⟨b3, e3, w3⟩ := ops_write hc h257 ops ho w2
    exact ⟨b3, by simp only [bind, Except.bind, e1, e2, e3], by simpa using w3⟩

/-- The payload. -/
def payloadB (codes : List (List Bool)) (gs : List (Opcode × List Op)) : List Bool := gs.flatMap (blockB codes)

theorem payloadB_len (codes : List (List Bool)) (gs : List (Opcode × List Op)) : (payloadB codes gs).length % 8 = 0 := by
  induction gs with
  | nil => rfl
  | cons g gs ih =>
    have := blockB_len codes g
    simp only [payloadB, List.flatMap_cons, List.length_append] at ih ⊢
    omega

theorem outputAll_writes {h : Huffman} {codes : List (List Bool)} (hc : Codes h codes) (h257 : codes.length = 257)
    (gs : List (Opcode × List Op)) : GroupsOk gs → ∀ {b : BitBucket} {bits : List Bool}, Wrote b bits →
    ∃ b', outputAll h gs b = .ok b' ∧ Wrote b' (bits ++ payloadB codes gs) := by
  induction gs with
  | nil => intro _ b bits hw; exact ⟨b, rfl, by simpa [payloadB] using hw⟩
  | cons g gs ih =>
    intro hg b bits hw
    obtain ⟨oc, ops⟩ := g
    obtain ⟨b1, e1, w1⟩ := outputOps_writes hc h257 oc ops (fun op ho => (hg (oc, ops) (by simp) op ho).2) hw
    obtain ⟨b2, e2, w2⟩ := ih (fun g hm => hg g (by simp [hm])) w1
    exact ⟨b2, by simp only [outputAll, bind, Except.bind, e1, e2], by simpa [payloadB] using w2⟩

/-- A header and the operations that it announces, with at most 256 of them. -/
theorem block_read {h : Huffman} {codes : List (List Bool)} (hc : Codes h codes) (h257 : codes.length = 257) (oc : Opcode)
    (ops : List Op) (hpos : 0 < ops.length) (hle : ops.length ≤ 256) (ho : ∀ op ∈ ops, OpOk op)
    (hoc : ∀ op ∈ ops, op.opcode = oc) (acc : List Op) {b : BitBucket} {pre rest : List Bool} (hp : pre.length % 8 = 0)
    (ha : At b pre (natBits 8 oc.val ++ (natBits 8 (ops.length - 1) ++ (opsB codes ops ++ rest)))) :
    ∃ b', readBlock h b acc = .ok (b', acc ++ ops) ∧
      At b' (pre ++ natBits 8 oc.val ++ natBits 8 (ops.length - 1) ++ opsB codes ops) rest := by
  obtain ⟨b1, e1, w1⟩ := at_8 (val_lt oc) ha
  obtain ⟨b2, e2, w2⟩ := at_8 (by omega) w1
  obtain ⟨b3, e3, w3⟩ := ops_read hc h257 oc ops ho hoc acc (by simp only [List.length_append, natBits_length]; omega) w2
  refine ⟨b3, ?_, w3⟩
  have : ops.length - 1 + 1 = ops.length := by omega
  simp only [readBlock, bind, Except.bind, e1, e2, opcodeOf_val, this, e3]

theorem blocks_read {h : Huffman} {codes : List (List Bool)} (hc : Codes h codes) (h257 : codes.length = 257)
    (gs : List (Opcode × List Op)) : GroupsOk gs → (∀ g ∈ gs, g.2.length ≤ 256) → ∀ (fuel : Nat) (acc : List Op)
    {b : BitBucket} {pre rest : List Bool}, pre.length % 8 = 0 → At b pre (payloadB codes gs ++ rest) →
    (payloadB codes gs).length ≤ fuel →
    ∃ b', readBlocks h fuel b (payloadB codes gs).length acc = .ok (b', acc ++ gs.flatMap (·.2)) ∧
      At b' (pre ++ payloadB codes gs) rest := by
  induction gs with
  | nil =>
    intro _ _ fuel acc b pre rest _ ha _
    refine ⟨b, ?_, by simpa [payloadB] using ha⟩
    unfold readBlocks
    rw [if_neg (by simp [payloadB])]
    simp
  | cons g gs ih =>
    intro hg hle fuel acc b pre rest hp ha hf
    obtain ⟨oc, ops⟩ := g
    have hle' := hle (oc, ops) (by simp)
    simp only at hle'
    by_cases h0 : ops.length = 0
    · have h0' := List.length_eq_zero_iff.1 h0
      subst h0'
      have hE : payloadB codes ((oc, []) :: gs) = payloadB codes gs := by simp [payloadB, blockB]
      rw [hE] at ha hf ⊢
      simpa using ih (fun g hm => hg g (by simp [hm])) (fun g hm => hle g (by simp [hm])) fuel acc hp ha hf
    · have hB : blockB codes (oc, ops) = natBits 8 oc.val ++ (natBits 8 (ops.length - 1) ++ opsB codes ops) := by
        unfold blockB
        rw [if_neg h0, Nat.min_eq_right hle', List.append_assoc]
      have hE : payloadB codes ((oc, ops) :: gs) = blockB codes (oc, ops) ++ payloadB codes gs := by simp [payloadB]
      rw [hE] at ha hf ⊢
      have ha' := ha
      rw [hB] at ha'
      simp only [List.append_assoc] at ha'
      obtain ⟨b1, e1, w1⟩ := block_read hc h257 oc ops (by omega) hle' (fun op ho => (hg (oc, ops) (by simp) op ho).2)
        (fun op ho => (hg (oc, ops) (by simp) op ho).1) acc hp ha'
      have r1 := at_remaining ha
      have r2 := at_remaining w1
      have hl := blockB_len codes (oc, ops)
      have h16 : 16 < (blockB codes (oc, ops)).length := by
        have hne : ops ≠ [] := by
          intro h
          simp [h] at h0
        obtain ⟨op, ops', rfl⟩ := List.exists_cons_of_ne_nil hne
        have := opB_pos hc h257 (hg (oc, op :: ops') (by simp) op (by simp)).2
        rw [hB]
        simp only [opsB, List.flatMap_cons, List.length_append, natBits_length]
        omega
      have w1' : At b1 (pre ++ blockB codes (oc, ops)) (payloadB codes gs ++ rest) := by
        rw [hB]
        simpa using w1
      simp only [List.length_append] at r1 r2 hf
      cases fuel with
      | zero => omega
      | succ fuel =>
        obtain ⟨b2, e2, w2⟩ := ih (fun g hm => hg g (by simp [hm])) (fun g hm => hle g (by simp [hm])) fuel (acc ++ ops)
          (by simp only [List.length_append]; omega) w1' (by omega)
        refine ⟨b2, ?_, by simpa using w2⟩
        unfold readBlocks
        rw [if_pos (by simp only [List.length_append]; omega)]
        have hlen : ((blockB codes (oc, ops) ++ payloadB codes gs).length : Int) - (bitsRemaining b - bitsRemaining b1) =
            (payloadB codes gs).length := by
          simp only [List.length_append]
          omega
        simp only [bind, Except.bind, e1, hlen, e2, List.flatMap_cons, List.append_assoc]

/-- The operations that are read if the frame has `lim` bits. -/
def taken (codes : List (List Bool)) : List (Opcode × List Op) → Int → List Op
  | [], _ => []
  | g :: gs, lim =>
    if g.2.length = 0 then taken codes gs lim
    else if lim > 16 then g.2 ++ taken codes gs (lim - (blockB codes g).length)
    else []

theorem taken_stop (codes : List (List Bool)) (gs : List (Opcode × List Op)) {lim : Int} (h : lim ≤ 16) :
    taken codes gs lim = [] := by
  induction gs with
  | nil => rfl
  | cons g gs ih =>
    unfold taken
    split
    · exact ih
    · rw [if_neg (by omega)]

theorem blocks_taken {h : Huffman} {codes : List (List Bool)} (hc : Codes h codes) (h257 : codes.length = 257)
    (gs : List (Opcode × List Op)) : GroupsOk gs → (∀ g ∈ gs, g.2.length ≤ 256) → ∀ (fuel : Nat) (acc : List Op) (lim : Int)
    {b : BitBucket} {pre rest : List Bool}, pre.length % 8 = 0 → At b pre (payloadB codes gs ++ rest) →
    lim ≤ (payloadB codes gs).length → (payloadB codes gs).length ≤ fuel →
    ∃ b', readBlocks h fuel b lim acc = .ok (b', acc ++ taken codes gs lim) := by
  induction gs with
  | nil =>
    intro _ _ fuel acc lim b pre rest _ ha hlim _
    refine ⟨b, ?_⟩
    simp only [payloadB, List.flatMap_nil, List.length_nil] at hlim
    unfold readBlocks
    rw [if_neg (by omega)]
    simp [taken]
  | cons g gs ih =>
    intro hg hle fuel acc lim b pre rest hp ha hlim hf
    by_cases h16 : lim > 16
    · obtain ⟨oc, ops⟩ := g
      have hle' := hle (oc, ops) (by simp)
      simp only at hle'
      by_cases h0 : ops.length = 0
      · have h0' := List.length_eq_zero_iff.1 h0
        subst h0'
        have hE : payloadB codes ((oc, []) :: gs) = payloadB codes gs := by simp [payloadB, blockB]
        rw [hE] at ha hf hlim
        simpa [taken] using ih (fun g hm => hg g (by simp [hm])) (fun g hm => hle g (by simp [hm])) fuel acc lim hp ha hlim hf
      · have hB : blockB codes (oc, ops) = natBits 8 oc.val ++ (natBits 8 (ops.length - 1) ++ opsB codes ops) := by
          unfold blockB
          rw [if_neg h0, Nat.min_eq_right hle', List.append_assoc]
        have hE : payloadB codes ((oc, ops) :: gs) = blockB codes (oc, ops) ++ payloadB codes gs := by simp [payloadB]
        rw [hE] at ha hf hlim
        have ha' := ha
        rw [hB] at ha'
        simp only [List.append_assoc] at ha'
        obtain ⟨b1, e1, w1⟩ := block_read hc h257 oc ops (by omega) hle' (fun op ho => (hg (oc, ops) (by simp) op ho).2)
          (fun op ho => (hg (oc, ops) (by simp) op ho).1) acc hp ha'
        have r1 := at_remaining ha
        have r2 := at_remaining w1
        have hl := blockB_len codes (oc, ops)
        have hpos : 0 < (blockB codes (oc, ops)).length := by
          rw [hB]
          simp only [List.length_append, natBits_length]
          omega
        have w1' : At b1 (pre ++ blockB codes (oc, ops)) (payloadB codes gs ++ rest) := by
          rw [hB]
          simpa using w1
        simp only [List.length_append] at r1 r2 hf hlim
        cases fuel with
        | zero => omega
        | succ fuel =>
          obtain ⟨b2, e2⟩ := ih (fun g hm => hg g (by simp [hm])) (fun g hm => hle g (by simp [hm])) fuel (acc ++ ops)
            (lim - (blockB codes (oc, ops)).length) (by simp only [List.length_append]; omega) w1' (by omega) (by omega)
          refine ⟨b2, ?_⟩
          unfold readBlocks
          rw [if_pos h16]
          have hlen : lim - (bitsRemaining b - bitsRemaining b1) = lim - (blockB codes (oc, ops)).length := by omega
          simp only [bind, Except.bind, e1, hlen, e2, taken, if_neg h0, if_pos h16, List.append_assoc]
    · refine ⟨b, ?_⟩
      unfold readBlocks
      rw [if_neg h16, taken_stop codes _ (by omega), List.append_nil]

theorem taken_append_lost (codes : List (List Bool)) (xs ys : List (Opcode × List Op)) : ∀ (lim : Int),
    lim ≤ (payloadB codes xs).length + 16 → taken codes (xs ++ ys) lim <+: xs.flatMap (·.2) := by
  induction xs with
  | nil =>
    intro lim h
    simp only [payloadB, List.flatMap_nil, List.length_nil] at h
    rw [List.nil_append, taken_stop codes ys (by omega)]
    exact List.nil_prefix
  | cons x xs ih =>
    intro lim h
    simp only [payloadB, List.flatMap_cons, List.length_append] at h ih
    rw [List.cons_append, taken, List.flatMap_cons]
    split
    · rename_i h0
      have : x.2 = [] := List.length_eq_zero_iff.1 h0
      rw [this, List.nil_append]
      have hB : blockB codes x = [] := by unfold blockB; rw [if_pos h0]
      rw [hB] at h
      exact ih lim (by simpa using h)
    · split
      · exact (List.prefix_append_right_inj _).2 (ih _ (by omega))
      · exact List.nil_prefix

theorem taken_append_last (codes : List (List Bool)) (xs : List (Opcode × List Op)) (y : Opcode × List Op) : ∀ (lim : Int),
    ((payloadB codes xs).length : Int) + 16 < lim → taken codes (xs ++ [y]) lim = (xs ++ [y]).flatMap (·.2) := by
  induction xs with
  | nil =>
    intro lim h
    simp only [payloadB, List.flatMap_nil, List.length_nil] at h
    simp only [List.nil_append, taken, List.flatMap_cons, List.flatMap_nil, List.append_nil]
    split
    · rename_i h0
      exact (List.length_eq_zero_iff.1 h0).symm
    · rw [if_pos (by omega)]
  | cons x xs ih =>
    intro lim h
    simp only [payloadB, List.flatMap_cons, List.length_append] at h ih
    rw [List.cons_append, taken, List.flatMap_cons]
    split
    · rename_i h0
      have : x.2 = [] := List.length_eq_zero_iff.1 h0
      rw [this, List.nil_append]
      exact ih lim (by omega)
    · rw [if_pos (by omega), ih _ (by omega)]

/-! ### Frames -/

/-- The bits of a frame header. -/
def headB (len flags streamId groupId frameType : Nat) : List Bool :=
  natBits 16 len ++ natBits 8 flags ++ natBits 32 (0x80000000 ||| streamId) ++ natBits 8 frameType ++ natBits 8 groupId

theorem headB_len (len flags streamId groupId frameType : Nat) :
    (headB len flags streamId groupId frameType).length = 72 := by simp [headB]

theorem boilerplate_spec {b : BitBucket} {bits : List Bool} (h : Wrote b bits) {len flags streamId groupId frameType : Nat}
    (h1 : len < 2 ^ 16) (h2 : flags < 2 ^ 8) (h3 : streamId < 2 ^ 31) (h4 : groupId < 2 ^ 8) (h5 : frameType < 2 ^ 8) :
    ∃ b', boilerplate b len flags streamId groupId frameType = .ok b' ∧
      Wrote b' (bits ++ headB len flags streamId groupId frameType) := by
  obtain ⟨b1, e1, w1⟩ := wrote_16 h h1
  obtain ⟨b2, e2, w2⟩ := wrote_8 w1 h2
  have hor : 0x80000000 ||| streamId = 2 ^ 31 + streamId := by
    have := Nat.two_pow_add_eq_or_of_lt (b := streamId) (i := 31) h3 1
    simpa using this.symm
  obtain ⟨b3, e3, w3⟩ := wrote_32 w2 (v := 0x80000000 ||| streamId) (by rw [hor]; omega)
  obtain ⟨b4, e4, w4⟩ := wrote_8 w3 h5
  obtain ⟨b5, e5, w5⟩ := wrote_8 w4 h4
  have hand : streamId &&& 0x80000000 = 0 := by
    apply Nat.eq_of_testBit_eq
    intro i
    have e : (0x80000000 : Nat) = 2 ^ 31 := by norm_num
    rw [Nat.testBit_and, Nat.zero_testBit, e, Nat.testBit_two_pow]
    by_cases hi : 31 = i
    · subst hi
      rw [Nat.testBit_lt_two_pow h3, Bool.false_and]
    · simp [hi]
  refine ⟨b5, ?_, ?_⟩
  · simp only [boilerplate, bind, Except.bind, e1, e2, e3, hand, ne_eq, not_true_eq_false, if_false, e4, e5]
  · simpa [headB, List.append_assoc] using w5

theorem frameLoop_spec (streamId groupId allowed : Nat) (h3 : streamId < 2 ^ 31) (h4 : groupId < 2 ^ 8)
    (ha : 0 < allowed) (ha' : allowed < 2 ^ 16) (fuel : Nat) : ∀ (payload : List Nat) {b : BitBucket} {bits : List Bool},
    Wrote b bits → (∀ x ∈ payload, x < 256) → payload.length < fuel →
    ∃ b' more, frameLoop streamId groupId allowed fuel b payload payload.length = .ok b' ∧
      Wrote b' (bits ++ headB (min payload.length allowed) 1 streamId groupId 8 ++ bitsOf payload ++ more) ∧
      more.length % 8 = 0 ∧ (payload.length ≤ allowed → more = []) ∧ (allowed < payload.length → 72 ≤ more.length) := by
  induction fuel with
  | zero => intro payload b bits _ _ h; omega
  | succ fuel ih =>
    intro payload b bits hw hp hf
    obtain ⟨b1, e1, w1⟩ := boilerplate_spec hw (len := min payload.length allowed) (flags := 1) (frameType := 8)
      (by omega) (by omega) h3 h4 (by omega)
    obtain ⟨b2, e2, w2⟩ := wrote_bytes w1 payload hp
    have e2' : storeBits b1 payload (min payload.length allowed * 8) = .ok b2 := by
      rw [← e2]
      exact storeBits_mod _ _ _ _ (by omega)
    by_cases hle : payload.length ≤ allowed
    · refine ⟨b2, [], ?_, by simpa using w2, rfl, fun _ => rfl, fun h => by omega⟩
      simp only [frameLoop, if_pos (Nat.min_le_left _ _), bind, Except.bind, e1, e2', if_pos hle]
    · have hl : payload.length - allowed = (payload.drop (min payload.length allowed)).length := by
        rw [List.length_drop]; omega
      obtain ⟨b3, more, e3, w3, hm, -⟩ := ih (payload.drop (min payload.length allowed)) w2
        (fun x hx => hp x (List.mem_of_mem_drop hx)) (by rw [← hl]; omega)
      refine ⟨b3, headB (min (payload.drop (min payload.length allowed)).length allowed) 1 streamId groupId 8 ++
        bitsOf (payload.drop (min payload.length allowed)) ++ more, ?_, by simpa [List.append_assoc] using w3, ?_,
        fun h => absurd h hle, fun _ => by simp only [List.length_append, headB_len]; omega⟩
      · simp only [frameLoop, if_pos (Nat.min_le_left _ _), bind, Except.bind, e1, e2', if_neg hle, hl, e3]
      · simp only [List.length_append, headB_len, bitsOf_length]
        omega

/-- What is sent, and that the reader gets to the payload. -/
theorem wire_any {h : Huffman} {codes : List (List Bool)} (hc : Codes h codes) (h257 : codes.length = 257)
    (gs : List (Opcode × List Op)) (hg : GroupsOk gs) (gid : Nat) (hid : gid < 256) :
    ∃ bytes payload more, opsToRealOps h gs gid = .ok bytes ∧ (∀ x ∈ bytes, x < 256) ∧
      outputAll h gs BitBucket.empty = .ok payload ∧ numBits payload = (payloadB codes gs).length ∧
      9 + (payloadB codes gs).length / 8 + more / 8 = bytes.length ∧
      (bytes.length ≤ 65536 → (payloadB codes gs).length ≤ 8 * 65527) ∧
      ((payloadB codes gs).length ≤ 8 * 65527 → bytes.length = 9 + (payloadB codes gs).length / 8) ∧
      ∃ b pre rest, At b pre (payloadB codes gs ++ rest) ∧ pre.length = 72 ∧
        8 * b.output.length ≥ (payloadB codes gs).length ∧
        realOpsToOps h bytes = (readBlocks h (8 * b.output.length) b (min (payloadB codes gs).length (8 * 65527) : Nat) []).map
          fun r => (gid, r.2) := by
  obtain ⟨b1, e1, w1⟩ := outputAll_writes hc h257 gs hg wrote_empty
  have hP8 := payloadB_len codes gs
  rw [List.nil_append] at w1
  generalize payloadB codes gs = P at w1 hP8 ⊢
  obtain ⟨o1, n1⟩ := wrote_out w1
  obtain ⟨b2, e2, w2⟩ := boilerplate_spec wrote_empty (len := 0) (flags := 0) (streamId := 0) (groupId := gid)
    (frameType := 0) (by omega) (by omega) (by omega) (by omega) (by omega)
  have n2 : bytesOfStorage b2 = 9 := by
    have := (wrote_out w2).2
    simp only [List.nil_append, headB_len] at this
    rw [bytesOfStorage, this]
    rfl
  have hpl : (pack P).length = P.length / 8 := by rw [pack_length]; omega
  have hlen : ((numBits b1 + 7) / 8).toNat = (pack P).length := by
    rw [n1, hpl]
    omega
  obtain ⟨b3, more, e3, w3, hm, hm0, -⟩ := frameLoop_spec 1234 gid 65527 (by omega) (by omega) (by omega) (by omega)
    ((pack P).length + 1) (pack P) wrote_empty (pack_lt P) (by omega)
  generalize hA : ([] ++ headB (min (pack P).length 65527) 1 1234 gid 8 ++ bitsOf (pack P) ++ more) = A at w3
  have hAl : A.length = 72 + 8 * (pack P).length + more.length := by
    rw [← hA]
    simp only [List.nil_append, List.length_append, headB_len, bitsOf_length]
  obtain ⟨o3, n3⟩ := wrote_out w3
  obtain ⟨b4, e4, w4⟩ := wrote_store wrote_empty A
  obtain ⟨o4, n4⟩ := wrote_out w4
  rw [List.nil_append] at o4 n4 w4
  have ser : opsToRealOps h gs gid = .ok (pack A) := by
    have : serialize h gs 1234 gid = .ok (pack A, (A.length : Int)) := by
      simp only [serialize, bind, Except.bind, e1, e2, n2, hlen, o1, pure, Except.pure]
      simp only [show (2 : Nat) ^ 16 - (9 : Int).toNat = 65527 from rfl, e3, o3, n3]
    simp only [opsToRealOps, bind, Except.bind, this, Int.toNat_natCast, e4, pure, Except.pure, o4]
  have hlA : (pack A).length * 8 = A.length := by rw [pack_length]; omega
  refine ⟨pack A, b1, more.length, ser, pack_lt A, e1, n1, by omega, by omega, ?_, ?_⟩
  · intro hfit
    have := hm0 (by omega)
    subst this
    simp only [List.length_nil] at hAl
    omega
  have hAform : A = headB (min (P.length / 8) 65527) 1 1234 gid 8 ++ (P ++ more) := by
    rw [← hA, pack_bits P hP8, hpl]
    simp [List.append_assoc]
  obtain ⟨b5, e5, w5⟩ := wrote_store wrote_empty A
  rw [List.nil_append] at w5
  obtain ⟨o5, n5⟩ := wrote_out w5
  have hst := w5.start
  rw [hAform] at hst
  simp only [headB, List.append_assoc] at hst
  obtain ⟨c1, f1, a1⟩ := at_16 (by omega) hst
  obtain ⟨c2, f2, a2⟩ := at_8 (by omega) a1
  obtain ⟨c3, f3, a3⟩ := at_32 (by decide) a2
  obtain ⟨c4, f4, a4⟩ := at_8 (by omega) a3
  obtain ⟨c5, f5, a5⟩ := at_8 (by omega) a4
  generalize hpre : ([] ++ natBits 16 (min (P.length / 8) 65527) ++ natBits 8 1 ++
    natBits 32 (2147483648 ||| 1234) ++ natBits 8 8 ++ natBits 8 gid) = pre at a5
  have hprel : pre.length = 72 := by rw [← hpre]; simp
  refine ⟨c5, pre, more, a5, hprel, ?_, ?_⟩
  · have := at_len a5
    simp only [List.length_append] at this
    omega
  have h5 : storeBits BitBucket.empty b5.output (numBits b5).toNat = .ok b5 := by
    rw [o5, n5, Int.toNat_natCast]
    exact e5
  have h6 : storeBits BitBucket.empty (pack A) ((pack A).length * 8) = .ok b5 := by rw [hlA]; exact e5
  have h8 : (min (P.length / 8) 65527 * 8 : Nat) = min P.length (8 * 65527) := by omega
  simp only [realOpsToOps, bind, Except.bind, h6, deserialize, h5, readFrames, f1, f2, f3, f4, f5, h8]
  cases readBlocks h (8 * c5.output.length) c5 (min P.length (8 * 65527) : Nat) [] with
  | error e => rfl
  | ok r => simp [Except.map, pure, Except.pure]

/-- The same for messages that fit into a frame. -/
theorem wire_spec {h : Huffman} {codes : List (List Bool)} (hc : Codes h codes) (h257 : codes.length = 257)
    (gs : List (Opcode × List Op)) (hg : GroupsOk gs) (gid : Nat) (hid : gid < 256) :
    ∃ bytes payload more, opsToRealOps h gs gid = .ok bytes ∧ (∀ x ∈ bytes, x < 256) ∧
      outputAll h gs BitBucket.empty = .ok payload ∧ numBits payload = (payloadB codes gs).length ∧
      9 + (payloadB codes gs).length / 8 + more / 8 = bytes.length ∧
      (bytes.length ≤ 65536 → (payloadB codes gs).length ≤ 8 * 65527) ∧
      ((payloadB codes gs).length ≤ 8 * 65527 → bytes.length = 9 + (payloadB codes gs).length / 8 ∧ ∃ b pre rest, At b pre (payloadB codes gs ++ rest) ∧ pre.length = 72 ∧
        8 * b.output.length ≥ (payloadB codes gs).length ∧
        realOpsToOps h bytes = (readBlocks h (8 * b.output.length) b (payloadB codes gs).length []).map
          fun r => (gid, r.2)) := by
  obtain ⟨bytes, payload, more, h1, h2, h3, h4, h5, h6, h7, b, pre, rest, h8, h9, h10, h11⟩ := wire_any hc h257 gs hg gid hid
  refine ⟨bytes, payload, more, h1, h2, h3, h4, h5, h6, fun hfit => ⟨h7 hfit, b, pre, rest, h8, h9, h10, ?_⟩⟩
  rw [h11, Nat.min_eq_left hfit]

/-- What arrives of a message of any size with at most 256 operations of a kind. -/
theorem wire_taken {h : Huffman} {codes : List (List Bool)} (hc : Codes h codes) (h257 : codes.length = 257)
    (gs : List (Opcode × List Op)) (hg : GroupsOk gs) (hle : ∀ g ∈ gs, g.2.length ≤ 256) (gid : Nat) (hid : gid < 256) :
    ∃ bytes, opsToRealOps h gs gid = .ok bytes ∧
      realOpsToOps h bytes = .ok (gid, taken codes gs (min (payloadB codes gs).length (8 * 65527) : Nat)) := by
  obtain ⟨bytes, payload, more, h1, -, -, -, -, -, -, b, pre, rest, h8, h9, h10, h11⟩ := wire_any hc h257 gs hg gid hid
  obtain ⟨b', e⟩ := blocks_taken hc h257 gs hg hle (8 * b.output.length) [] (min (payloadB codes gs).length (8 * 65527) : Nat)
    (by omega) h8 (by omega) (by omega)
  exact ⟨bytes, h1, by rw [h11, e]; rfl⟩

theorem payload_bits {h : Huffman} {codes : List (List Bool)} (hc : Codes h codes) (h257 : codes.length = 257)
    (gs : List (Opcode × List Op)) (hg : GroupsOk gs) :
    ∃ b, outputAll h gs BitBucket.empty = .ok b ∧ numBits b = (payloadB codes gs).length := by
  obtain ⟨b, e, w⟩ := outputAll_writes hc h257 gs hg wrote_empty
  rw [List.nil_append] at w
  exact ⟨b, e, (wrote_out w).2⟩

theorem wire_ok {h : Huffman} {codes : List (List Bool)} (hc : Codes h codes) (h257 : codes.length = 257)
    (gs : List (Opcode × List Op)) (hg : GroupsOk gs) (hle : ∀ g ∈ gs, g.2.length ≤ 256) (gid : Nat) (hid : gid < 256)
    {bytes : Str} (hb : opsToRealOps h gs gid = .ok bytes) (hfit : bytes.length ≤ 65536) :
    realOpsToOps h bytes = .ok (gid, gs.flatMap (·.2)) := by
  obtain ⟨bytes', payload, more, e, -, -, -, -, hsz, hr⟩ := wire_spec hc h257 gs hg gid hid
  rw [hb] at e
  cases e
  obtain ⟨-, b, pre, rest, ha, hp, hf, er⟩ := hr (hsz hfit)
  obtain ⟨b', e2, -⟩ := blocks_read hc h257 gs hg hle (8 * b.output.length) [] (by rw [hp]) ha hf
  rw [er, e2]
  rfl

end Verif.Delta1
