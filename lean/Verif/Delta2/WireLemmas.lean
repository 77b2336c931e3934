import Verif.Delta2.Spec
import Verif.Delta2.FieldLemmas
/-
The serialiser writes, and the deserialiser reads, the same bits.
-/
namespace Verif.Delta2
open Verif Verif.Bits Verif.Bits.Spec Verif.Huff Verif.Huff.Spec

/-- Bits to be written; they may depend on the position modulo 8. -/
abbrev Emit := Nat → List Bool

/-- One after the other. -/
def Emit.seq (e f : Emit) : Emit := fun n => e n ++ f (n + (e n).length)

/-- Nothing. -/
def Emit.nil : Emit := fun _ => []

/-- Depends on the position only modulo 8. -/
def Aligned (e : Emit) : Prop := ∀ n m, n % 8 = m % 8 → e n = e m

/-- `f` writes these bits. -/
def Writes (f : BitBucket → Py BitBucket) (e : Emit) : Prop :=
  ∀ (b : BitBucket) (t : Tape), Holds b t → ∃ b', f b = .ok b' ∧ Holds b' (t.write (e t.bits.length))

/-- `g` reads these bits and returns `v`. -/
def Reads {α : Type} (g : BitBucket → Py (BitBucket × α)) (e : Emit) (v : α) : Prop :=
  ∀ (b : BitBucket) (pre rest : List Bool), At b pre (e pre.length ++ rest) →
    ∃ b', g b = .ok (b', v) ∧ At b' (pre ++ e pre.length) rest

theorem Aligned.nil : Aligned Emit.nil := fun _ _ _ => rfl

theorem Aligned.seq {e f : Emit} (he : Aligned e) (hf : Aligned f) : Aligned (e.seq f) := by
  intro n m h
  simp only [Emit.seq]
  rw [he n m h, hf (n + (e m).length) (m + (e m).length) (by omega)]

theorem Writes.nil : Writes .ok Emit.nil := fun b t h => ⟨b, rfl, by simpa [Emit.nil, Tape.write] using h⟩

theorem Writes.seq {f g : BitBucket → Py BitBucket} {e e' : Emit} (hf : Writes f e) (hg : Writes g e') :
    Writes (fun b => (f b).bind g) (e.seq e') := by
  intro b t h
  obtain ⟨b1, e1, h1⟩ := hf b t h
  obtain ⟨b2, e2, h2⟩ := hg b1 _ h1
  refine ⟨b2, by simp only [e1, Except.bind, e2], ?_⟩
  rw [write_write] at h2
  simp only [Emit.seq]
  simpa [Tape.write] using h2

/-! ### Fields -/

/-- The bits of an index. -/
def intE : IntPack → Int → Emit
  | .int8, v => fun _ => natBits 8 v.toNat
  | .int16, v => fun _ => natBits 16 v.toNat
  | .varint, v => fun _ => varBits v.toNat

theorem intE_aligned (p : IntPack) (v : Int) : Aligned (intE p v) := by
  intro n m _
  cases p <;> rfl

theorem intE_len (p : IntPack) (v : Int) (n : Nat) : 4 ≤ (intE p v n).length := by
  cases p <;> simp [intE, varBits_len]

theorem int_writes {p : IntPack} {v : Int} (h : IntOk p v) : Writes (fun b => p.pack b v) (intE p v) := by
  intro b t hb
  cases p with
  | int8 =>
    simp only [IntOk] at h
    simp only [IntPack.pack, packInt8, intE]
    rw [if_neg (by omega)]
    exact holds_8 hb (by omega)
  | int16 =>
    simp only [IntOk] at h
    simp only [IntPack.pack, packInt16, intE]
    rw [if_neg (by omega)]
    exact holds_16 hb (by omega)
  | varint =>
    simp only [IntOk] at h
    obtain ⟨b', e, h'⟩ := packVarInt_spec v.toNat hb
    rw [Int.toNat_of_nonneg h] at e
    exact ⟨b', e, h'⟩

theorem int_reads {p : IntPack} {v : Int} (h : IntOk p v) : Reads p.unpack (intE p v) v := by
  intro b pre rest ha
  cases p with
  | int8 =>
    simp only [IntOk] at h
    obtain ⟨b', e, h'⟩ := at_8 (by omega) ha
    refine ⟨b', ?_, h'⟩
    simp only [IntPack.unpack, unpackInt8, bind, Except.bind, e, pure, Except.pure]
    rw [Int.toNat_of_nonneg h.1]
  | int16 =>
    simp only [IntOk] at h
    obtain ⟨b', e, h'⟩ := at_16 (by omega) ha
    refine ⟨b', ?_, h'⟩
    simp only [IntPack.unpack, unpackInt16, bind, Except.bind, e, pure, Except.pure]
    rw [Int.toNat_of_nonneg h.1]
  | varint =>
    simp only [IntOk] at h
    obtain ⟨b', e, h'⟩ := unpackVarInt_spec v.toNat ha
    rw [Int.toNat_of_nonneg h] at e
    exact ⟨b', e, h'⟩

/-- The bits of a string. -/
def strE (codes : List (List Bool)) (s : Str) : Emit := fun n => strBits codes true n s

theorem strE_aligned (codes : List (List Bool)) (s : Str) : Aligned (strE codes s) := by
  intro n m hnm
  have : ∀ l : Nat, (n + l) % 8 = (m + l) % 8 := fun l => by omega
  simp only [strE, strBits, padZeros, this]

theorem textBits_len {h : Huffman} {codes : List (List Bool)} (hc : Codes h codes) (s : List Nat)
    (hs : ∀ c ∈ s, c < codes.length) : s.length ≤ (textBits codes s).length := by
  induction s with
  | nil => simp
  | cons c s ih =>
    have h1 := ih (fun x hx => hs x (by simp [hx]))
    have h2 := code_pos hc (hs c (by simp))
    simp only [textBits, List.flatMap_cons, List.length_append, List.length_cons] at h1 ⊢
    omega

theorem strE_len {h : Huffman} {codes : List (List Bool)} (hc : Codes h codes) (h257 : codes.length = 257) (s : Str)
    (hs : ∀ c ∈ s, c < 256) (n : Nat) : s.length + 1 ≤ (strE codes s n).length := by
  have := textBits_len hc (s ++ [256]) (by
    intro c hcs
    simp only [List.mem_append, List.mem_singleton] at hcs
    rcases hcs with h | h
    · have := hs c h; omega
    · omega)
  simp only [strE, strBits, if_true, List.length_append] at this ⊢
  simp only [List.length_cons, List.length_nil] at this
  omega

/-- The object packs strings with a 257-symbol code. -/
structure StrOk (huff : Option Huffman) (codes : List (List Bool)) : Prop where
  ex : ∃ h, huff = some h ∧ Codes h codes
  len : codes.length = 257

theorem str_writes {huff : Option Huffman} {codes : List (List Bool)} (hk : StrOk huff codes) {s : Str}
    (hs : ∀ c ∈ s, c < 256) : Writes (fun b => packStr huff true true b s) (strE codes s) := by
  obtain ⟨h, rfl, hc⟩ := hk.ex
  intro b t hb
  exact packStr_spec hc hk.len true s hs hb

theorem str_reads {huff : Option Huffman} {codes : List (List Bool)} (hk : StrOk huff codes) {s : Str}
    (hs : ∀ c ∈ s, c < 256) : Reads (unpackStr huff true true) (strE codes s) s := by
  obtain ⟨h, rfl, hc⟩ := hk.ex
  intro b pre rest ha
  exact unpackStr_spec hc hk.len true s hs ha

/-- The bits of a field. -/
def fieldE (p : IntPack) (codes : List (List Bool)) (op : Op) : Field → Emit
  | .index => match op.index with
    | none => .nil
    | some v => intE p v
  | .indexStart => match op.indexStart with
    | none => .nil
    | some v => intE p v
  | .key => match op.key with
    | none => .nil
    | some s => strE codes s
  | .val => match op.val with
    | none => .nil
    | some s => strE codes s

theorem fieldE_aligned (p : IntPack) (codes : List (List Bool)) (op : Op) (f : Field) : Aligned (fieldE p codes op f) := by
  cases f <;> simp only [fieldE] <;> split <;> first | exact Aligned.nil | exact intE_aligned _ _ | exact strE_aligned _ _

theorem field_writes {p : Packing} {codes : List (List Bool)} (hk : StrOk p.huff codes) {op : Op} (hv : ValsOk p.ints op)
    (f : Field) : Writes (fun b => packField p b op f) (fieldE p.ints codes op f) := by
  cases f with
  | index =>
    cases h : op.index with
    | none => simp only [packField, fieldE, h]; exact Writes.nil
    | some v => simp only [packField, fieldE, h]; exact int_writes (hv.index v h)
  | indexStart =>
    cases h : op.indexStart with
    | none => simp only [packField, fieldE, h]; exact Writes.nil
    | some v => simp only [packField, fieldE, h]; exact int_writes (hv.start v h)
  | key =>
    cases h : op.key with
    | none => simp only [packField, fieldE, h]; exact Writes.nil
    | some v => simp only [packField, fieldE, h]; exact str_writes hk (hv.key v h)
  | val =>
    cases h : op.val with
    | none => simp only [packField, fieldE, h]; exact Writes.nil
    | some v => simp only [packField, fieldE, h]; exact str_writes hk (hv.val v h)

/-- The bits of some fields. -/
def fieldsE (p : IntPack) (codes : List (List Bool)) (op : Op) : List Field → Emit
  | [] => .nil
  | f :: fs => (fieldE p codes op f).seq (fieldsE p codes op fs)

theorem fieldsE_aligned (p : IntPack) (codes : List (List Bool)) (op : Op) (fs : List Field) :
    Aligned (fieldsE p codes op fs) := by
  induction fs with
  | nil => exact Aligned.nil
  | cons f fs ih => exact (fieldE_aligned p codes op f).seq ih

theorem fields_write {p : Packing} {codes : List (List Bool)} (hk : StrOk p.huff codes) {op : Op} (hv : ValsOk p.ints op)
    (fs : List Field) : Writes (writeFields p op fs) (fieldsE p.ints codes op fs) := by
  induction fs with
  | nil => exact Writes.nil
  | cons f fs ih => exact (field_writes hk hv f).seq ih

/-- Copy a field. -/
def Op.copy (src dst : Op) : Field → Op
  | .index => { dst with index := src.index }
  | .indexStart => { dst with indexStart := src.indexStart }
  | .key => { dst with key := src.key }
  | .val => { dst with val := src.val }

theorem field_reads {p : Packing} {codes : List (List Bool)} (hk : StrOk p.huff codes) {op : Op} (hv : ValsOk p.ints op)
    (dst : Op) (f : Field) (hf : op.has f = true) :
    Reads (fun b => unpackField p b dst f) (fieldE p.ints codes op f) (op.copy dst f) := by
  intro b pre rest ha
  cases f with
  | index =>
    simp only [Op.has, Option.isSome_iff_exists] at hf
    obtain ⟨v, hf⟩ := hf
    simp only [fieldE, hf] at ha ⊢
    obtain ⟨b', e, h'⟩ := int_reads (hv.index v hf) b pre rest ha
    exact ⟨b', by simp only [unpackField, bind, Except.bind, e, pure, Except.pure, Op.copy, hf], h'⟩
  | indexStart =>
    simp only [Op.has, Option.isSome_iff_exists] at hf
    obtain ⟨v, hf⟩ := hf
    simp only [fieldE, hf] at ha ⊢
    obtain ⟨b', e, h'⟩ := int_reads (hv.start v hf) b pre rest ha
    exact ⟨b', by simp only [unpackField, bind, Except.bind, e, pure, Except.pure, Op.copy, hf], h'⟩
  | key =>
    simp only [Op.has, Option.isSome_iff_exists] at hf
    obtain ⟨v, hf⟩ := hf
    simp only [fieldE, hf] at ha ⊢
    obtain ⟨b', e, h'⟩ := str_reads hk (hv.key v hf) b pre rest ha
    exact ⟨b', by simp only [unpackField, bind, Except.bind, e, pure, Except.pure, Op.copy, hf], h'⟩
  | val =>
    simp only [Op.has, Option.isSome_iff_exists] at hf
    obtain ⟨v, hf⟩ := hf
    simp only [fieldE, hf] at ha ⊢
    obtain ⟨b', e, h'⟩ := str_reads hk (hv.val v hf) b pre rest ha
    exact ⟨b', by simp only [unpackField, bind, Except.bind, e, pure, Except.pure, Op.copy, hf], h'⟩

theorem fieldE_absent (p : IntPack) (codes : List (List Bool)) (op : Op) (f : Field) (h : op.has f = false) :
    fieldE p codes op f = .nil := by
  cases f <;> simp only [Op.has, Option.isSome_eq_false_iff, Option.isNone_iff_eq_none] at h <;> simp only [fieldE, h]

theorem fields_read {p : Packing} {codes : List (List Bool)} (hk : StrOk p.huff codes) {op : Op} (hv : ValsOk p.ints op)
    (fields : List Field) (hf : ∀ f, op.has f = decide (f ∈ fields)) (fs : List Field) : ∀ dst : Op,
    Reads (fun b => readFields p fields fs b dst) (fieldsE p.ints codes op fs)
      ((fs.filter (· ∈ fields)).foldl op.copy dst) := by
  induction fs with
  | nil =>
    intro dst b pre rest ha
    exact ⟨b, rfl, by simpa [fieldsE, Emit.nil] using ha⟩
  | cons f fs ih =>
    intro dst b pre rest ha
    by_cases hm : f ∈ fields
    · simp only [fieldsE, Emit.seq, List.append_assoc] at ha ⊢
      obtain ⟨b1, e1, h1⟩ := field_reads hk hv dst f (by simp [hf, hm]) b pre _ ha
      rw [← List.length_append] at h1
      obtain ⟨b2, e2, h2⟩ := ih (op.copy dst f) b1 _ rest h1
      refine ⟨b2, ?_, ?_⟩
      · simp only [readFields, if_pos hm, bind, Except.bind, e1, e2]
        rw [List.filter_cons_of_pos (by simpa using hm)]
        rfl
      · rw [List.length_append] at h2
        simpa [List.append_assoc] using h2
    · have ha' := fieldE_absent p.ints codes op f (by simp [hf, hm])
      simp only [fieldsE, Emit.seq, ha', Emit.nil, List.nil_append, List.length_nil, Nat.add_zero] at ha ⊢
      obtain ⟨b2, e2, h2⟩ := ih dst b pre rest ha
      refine ⟨b2, ?_, h2⟩
      simp only [readFields, if_neg hm, e2]
      rw [List.filter_cons_of_neg (by simpa using hm)]

theorem fields_shape (oc : Opcode) (f : Field) : f ∈ oc.fields ↔ f ∈ shapeOf oc := by
  cases oc <;> cases f <;> simp [Opcode.fields, shapeOf]

theorem Shaped.fields {op : Op} (h : Shaped op) (f : Field) : op.has f = decide (f ∈ op.opcode.fields) := by
  rw [h f]
  exact decide_eq_decide.2 (fields_shape _ _).symm

theorem shaped_copy {op : Op} (h : Shaped op) :
    (packingOrder.filter (· ∈ op.opcode.fields)).foldl op.copy { opcode := op.opcode } = op := by
  obtain ⟨oc, i, s, k, v⟩ := op
  have h1 := h.fields .index
  have h2 := h.fields .indexStart
  have h3 := h.fields .key
  have h4 := h.fields .val
  cases oc <;> simp [Op.has, Opcode.fields] at h1 h2 h3 h4 <;> subst_vars <;>
    simp [packingOrder, Opcode.fields, Op.copy]

/-- The bits of an operation. -/
def opE (p : IntPack) (codes : List (List Bool)) (op : Op) : Emit := fieldsE p codes op packingOrder

theorem op_reads {p : Packing} {codes : List (List Bool)} (hk : StrOk p.huff codes) {op : Op} (h : OpOk p.ints op) :
    Reads (fun b => readFields p op.opcode.fields packingOrder b { opcode := op.opcode }) (opE p.ints codes op) op := by
  have := fields_read hk h.vals op.opcode.fields h.shaped.fields packingOrder { opcode := op.opcode }
  rwa [shaped_copy h.shaped] at this

theorem fieldsE_ge (p : IntPack) (codes : List (List Bool)) (op : Op) (f : Field) (fs : List Field) : ∀ n, f ∈ fs →
    ∃ m, (fieldE p codes op f m).length ≤ (fieldsE p codes op fs n).length := by
  induction fs with
  | nil => intro n h; simp at h
  | cons g fs ih =>
    intro n h
    rcases List.mem_cons.1 h with rfl | h
    · exact ⟨n, by simp [fieldsE, Emit.seq]⟩
    · obtain ⟨m, hm⟩ := ih (n + (fieldE p codes op g n).length) h
      refine ⟨m, ?_⟩
      simp only [fieldsE, Emit.seq, List.length_append]
      omega

theorem opE_pos {p : IntPack} {huff : Option Huffman} {codes : List (List Bool)} (hk : StrOk huff codes) {op : Op}
    (h : OpOk p op) (n : Nat) : 1 ≤ (opE p codes op n).length := by
  obtain ⟨hf, _, hc⟩ := hk.ex
  have h1 := h.shaped.fields .index
  have h3 := h.shaped.fields .key
  cases hi : op.index with
  | some x =>
    obtain ⟨m, hm⟩ := fieldsE_ge p codes op .index packingOrder n (by simp [packingOrder])
    simp only [fieldE, hi] at hm
    have := intE_len p x m
    simp only [opE]
    omega
  | none =>
    cases hk' : op.key with
    | none =>
      simp only [Op.has, hi, hk'] at h1 h3
      cases hoc : op.opcode <;> simp [hoc, Opcode.fields] at h1 h3
    | some x =>
      obtain ⟨m, hm⟩ := fieldsE_ge p codes op .key packingOrder n (by simp [packingOrder])
      simp only [fieldE, hk'] at hm
      have := strE_len hc hk.len x (h.vals.key x hk') m
      simp only [opE]
      omega

/-! ### Blocks -/

/-- The bits of some operations. -/
def opsE (p : IntPack) (codes : List (List Bool)) : List Op → Emit
  | [] => .nil
  | op :: ops => (opE p codes op).seq (opsE p codes ops)

theorem opsE_aligned (p : IntPack) (codes : List (List Bool)) (ops : List Op) : Aligned (opsE p codes ops) := by
  induction ops with
  | nil => exact Aligned.nil
  | cons op ops ih => exact (fieldsE_aligned p codes op _).seq ih

theorem ops_write {p : Packing} {codes : List (List Bool)} (hk : StrOk p.huff codes) (ops : List Op)
    (h : ∀ op ∈ ops, OpOk p.ints op) : Writes (writeOps p ops) (opsE p.ints codes ops) := by
  induction ops with
  | nil => exact Writes.nil
  | cons op ops ih =>
    exact (fields_write hk (h op (by simp)).vals packingOrder).seq (ih fun o ho => h o (by simp [ho]))

theorem ops_read {p : Packing} {codes : List (List Bool)} (hk : StrOk p.huff codes) (opcode : Opcode) (ops : List Op)
    (h : ∀ op ∈ ops, OpOk p.ints op) (hoc : ∀ op ∈ ops, op.opcode = opcode) :
    ∀ (acc : List Op) {b : BitBucket} {pre rest : List Bool}, At b pre (opsE p.ints codes ops pre.length ++ rest) →
    ∃ b', readOps p opcode ops.length b acc = (acc ++ ops, some b') ∧
      At b' (pre ++ opsE p.ints codes ops pre.length) rest := by
  induction ops with
  | nil =>
    intro acc b pre rest ha
    exact ⟨b, by simp [readOps], by simpa [opsE, Emit.nil] using ha⟩
  | cons op ops ih =>
    intro acc b pre rest ha
    simp only [opsE, Emit.seq, List.append_assoc] at ha ⊢
    obtain ⟨b1, e1, h1⟩ := op_reads hk (h op (by simp)) b pre _ ha
    rw [hoc op (by simp)] at e1
    rw [← List.length_append] at h1
    obtain ⟨b2, e2, h2⟩ := ih (fun o ho => h o (by simp [ho])) (fun o ho => hoc o (by simp [ho])) (acc ++ [op]) h1
    refine ⟨b2, ?_, ?_⟩
    · simp only [List.length_cons, readOps, e1, e2]
      simp
    · rw [List.length_append] at h2
      simpa [List.append_assoc] using h2

/-- Up to sixteen operations with the same opcode. -/
structure BlockOk (p : IntPack) (blk : Opcode × List Op) : Prop where
  pos : 0 < blk.2.length
  le : blk.2.length ≤ 16
  code : ∀ op ∈ blk.2, op.opcode = blk.1
  ops : ∀ op ∈ blk.2, OpOk p op

/-- The bits of a block. -/
def blockE (p : IntPack) (codes : List (List Bool)) (blk : Opcode × List Op) : Emit :=
  Emit.seq (fun _ => natBits 8 (16 * blk.1.val + (blk.2.length - 1))) (opsE p codes blk.2)

theorem blockE_aligned (p : IntPack) (codes : List (List Bool)) (blk : Opcode × List Op) : Aligned (blockE p codes blk) :=
  Aligned.seq (fun _ _ _ => rfl) (opsE_aligned p codes blk.2)

theorem blockE_len {p : IntPack} {huff : Option Huffman} {codes : List (List Bool)} (hk : StrOk huff codes)
    {blk : Opcode × List Op} (h : BlockOk p blk) (n : Nat) : 9 ≤ (blockE p codes blk n).length := by
  obtain ⟨oc, ops⟩ := blk
  cases ops with
  | nil => exact absurd h.pos (by simp)
  | cons op ops =>
    have := opE_pos hk (h.ops op (by simp)) (n + 8)
    simp only [blockE, opsE, Emit.seq, List.length_append, natBits_length]
    omega

theorem val_lt (oc : Opcode) : oc.val < 8 := by cases oc <;> decide

theorem opcodeOf_val (oc : Opcode) : opcodeOf oc.val = some oc := by cases oc <;> rfl

theorem header_eq (oc : Opcode) (k : Nat) (h1 : 0 < k) (h2 : k ≤ 16) :
    oc.val <<< 4 ||| ((k - 1) &&& 0x0f) = 16 * oc.val + (k - 1) := by
  have : (k - 1) &&& 15 = k - 1 := by
    have := Nat.and_two_pow_sub_one_of_lt_two_pow (n := 4) (x := k - 1) (by omega)
    simpa using this
  rw [this, Nat.shiftLeft_eq]
  have := Nat.two_pow_add_eq_or_of_lt (b := k - 1) (i := 4) (by omega) oc.val
  rw [Nat.mul_comm oc.val, ← this]

theorem block_read {p : Packing} {codes : List (List Bool)} (hk : StrOk p.huff codes) {blk : Opcode × List Op}
    (h : BlockOk p.ints blk) (acc : List Op) {b : BitBucket} {pre rest : List Bool}
    (ha : At b pre (blockE p.ints codes blk pre.length ++ rest)) :
    ∃ b', readBlock p b acc = (acc ++ blk.2, some b') ∧ At b' (pre ++ blockE p.ints codes blk pre.length) rest := by
  obtain ⟨oc, ops⟩ := blk
  have hp := h.pos
  have hl := h.le
  have hv := val_lt oc
  simp only at hp hl
  simp only [blockE, Emit.seq, List.append_assoc] at ha ⊢
  obtain ⟨b1, e1, h1⟩ := at_8 (by omega) ha
  rw [← List.length_append] at h1
  obtain ⟨b2, e2, h2⟩ := ops_read hk oc ops h.ops h.code acc h1
  refine ⟨b2, ?_, ?_⟩
  · have a1 : (16 * oc.val + (ops.length - 1)) >>> 4 = oc.val := by
      rw [Nat.shiftRight_eq_div_pow]; omega
    have a2 : ((16 * oc.val + (ops.length - 1)) &&& 0x0f) + 1 = ops.length := by
      have := Nat.and_two_pow_sub_one_eq_mod (16 * oc.val + (ops.length - 1)) 4
      simp only [show (2 : Nat) ^ 4 - 1 = 15 from rfl] at this
      rw [this]
      omega
    simp only [readBlock, e1, a1, opcodeOf_val, a2, e2]
  · rw [List.length_append] at h2
    simpa [List.append_assoc] using h2

/-- The bits of some blocks. -/
def blocksE (p : IntPack) (codes : List (List Bool)) : List (Opcode × List Op) → Emit
  | [] => .nil
  | blk :: bs => (blockE p codes blk).seq (blocksE p codes bs)

theorem blocksE_aligned (p : IntPack) (codes : List (List Bool)) (bs : List (Opcode × List Op)) :
    Aligned (blocksE p codes bs) := by
  induction bs with
  | nil => exact Aligned.nil
  | cons blk bs ih => exact (blockE_aligned p codes blk).seq ih

/-- The blocks which begin before the limit. -/
def taken (p : IntPack) (codes : List (List Bool)) : Int → Nat → List (Opcode × List Op) → List (Opcode × List Op)
  | _, _, [] => []
  | lim, n, blk :: bs =>
    if lim > 8 then blk :: taken p codes (lim - (blockE p codes blk n).length) (n + (blockE p codes blk n).length) bs
    else []

theorem blocks_read {p : Packing} {codes : List (List Bool)} (hk : StrOk p.huff codes) (bs : List (Opcode × List Op))
    (h : ∀ blk ∈ bs, BlockOk p.ints blk) : ∀ (fuel : Nat) (lim : Int) (acc : List Op) {b : BitBucket} {pre rest : List Bool},
    At b pre (blocksE p.ints codes bs pre.length ++ rest) → bs.length ≤ fuel →
    lim ≤ (blocksE p.ints codes bs pre.length).length + 8 →
    ∃ r, readBlocks p fuel b lim acc = .ok (acc ++ (taken p.ints codes lim pre.length bs).flatMap (·.2), r) := by
  induction bs with
  | nil =>
    intro fuel lim acc b pre rest _ _ hlim
    refine ⟨some b, ?_⟩
    simp only [blocksE, Emit.nil, List.length_nil] at hlim
    unfold readBlocks
    rw [if_neg (by omega)]
    simp [taken]
  | cons blk bs ih =>
    intro fuel lim acc b pre rest ha hfuel hlim
    simp only [blocksE, Emit.seq, List.append_assoc] at ha hlim
    by_cases hgt : lim > 8
    · cases fuel with
      | zero => simp at hfuel
      | succ fuel =>
        obtain ⟨b1, e1, h1⟩ := block_read hk (h blk (by simp)) acc ha
        have r1 := at_remaining ha
        have r2 := at_remaining h1
        rw [← List.length_append] at h1
        simp only [List.length_append] at r1 r2 hlim
        obtain ⟨r, e⟩ := ih (fun x hx => h x (by simp [hx])) fuel (lim - (bitsRemaining b - bitsRemaining b1))
          (acc ++ blk.2) h1 (by simpa using hfuel) (by rw [List.length_append]; omega)
        refine ⟨r, ?_⟩
        have hl : lim - (bitsRemaining b - bitsRemaining b1) = lim - (blockE p.ints codes blk pre.length).length := by
          omega
        unfold readBlocks
        rw [if_pos hgt]
        simp only [e1, e]
        simp only [taken, if_pos hgt, List.flatMap_cons, hl, List.length_append, List.append_assoc]
    · refine ⟨some b, ?_⟩
      unfold readBlocks
      rw [if_neg hgt]
      simp [taken, if_neg hgt]

/-! ### The payload -/

/-- Groups of sixteen. -/
def chunks : Nat → List Op → List (List Op)
  | 0, _ => []
  | fuel + 1, ops => if ops.length > 0 then ops.take 16 :: chunks fuel (ops.drop 16) else []

/-- The blocks written for the operations. -/
def blocks (gs : Groups) : List (Opcode × List Op) :=
  gs.flatMap fun g => (chunks g.2.length g.2).map fun c => (g.1, c)

theorem chunks_flat (fuel : Nat) : ∀ ops : List Op, ops.length ≤ fuel → (chunks fuel ops).flatten = ops := by
  induction fuel with
  | zero => intro ops h; have := List.length_eq_zero_iff.1 (Nat.le_zero.1 h); simp [chunks, this]
  | succ fuel ih =>
    intro ops h
    rw [chunks]
    split
    · rw [List.flatten_cons, ih _ (by rw [List.length_drop]; omega), List.take_append_drop]
    · have := List.length_eq_zero_iff.1 (by omega : ops.length = 0)
      simp [this]

theorem chunks_mem (fuel : Nat) : ∀ ops : List Op, ∀ c ∈ chunks fuel ops,
    0 < c.length ∧ c.length ≤ 16 ∧ ∀ op ∈ c, op ∈ ops := by
  induction fuel with
  | zero => intro ops c h; simp [chunks] at h
  | succ fuel ih =>
    intro ops c h
    rw [chunks] at h
    split at h
    · rcases List.mem_cons.1 h with rfl | h
      · refine ⟨by rw [List.length_take]; omega, by rw [List.length_take]; omega, fun op ho => List.mem_of_mem_take ho⟩
      · obtain ⟨a, b, c'⟩ := ih _ c h
        exact ⟨a, b, fun op ho => List.mem_of_mem_drop (c' op ho)⟩
    · simp at h

theorem blocks_flat (gs : Groups) : (blocks gs).flatMap (·.2) = gs.flatMap (·.2) := by
  induction gs with
  | nil => rfl
  | cons g gs ih =>
    simp only [blocks, List.flatMap_cons, List.flatMap_append] at ih ⊢
    rw [ih]
    congr 1
    rw [List.flatMap_map]
    conv_rhs => rw [← chunks_flat g.2.length g.2 le_rfl]
    simp [List.flatMap_def]

theorem blocks_ok {p : IntPack} {gs : Groups} (h : GroupsOk p gs) : ∀ blk ∈ blocks gs, BlockOk p blk := by
  intro blk hb
  simp only [blocks, List.mem_flatMap, List.mem_map] at hb
  obtain ⟨g, hg, c, hc, rfl⟩ := hb
  obtain ⟨h1, h2, h3⟩ := chunks_mem _ _ c hc
  exact ⟨h1, h2, fun op ho => (h g hg op (h3 op ho)).1, fun op ho => (h g hg op (h3 op ho)).2⟩

theorem outputOps_writes {p : Packing} {codes : List (List Bool)} (hk : StrOk p.huff codes) (oc : Opcode) (fuel : Nat) :
    ∀ ops : List Op, ops.length ≤ fuel → (∀ op ∈ ops, OpOk p.ints op) →
    Writes (outputOps p oc fuel ops) (blocksE p.ints codes ((chunks fuel ops).map fun c => (oc, c))) := by
  induction fuel with
  | zero =>
    intro ops h _
    have := List.length_eq_zero_iff.1 (Nat.le_zero.1 h)
    subst this
    exact Writes.nil
  | succ fuel ih =>
    intro ops h hok
    by_cases hp : ops.length > 0
    · have hchunk : chunks (fuel + 1) ops = ops.take 16 :: chunks fuel (ops.drop 16) := by rw [chunks, if_pos hp]
      rw [hchunk]
      have hw : Writes (fun b => storeBits8 b (16 * oc.val + ((ops.take 16).length - 1)))
          (fun _ => natBits 8 (16 * oc.val + ((ops.take 16).length - 1))) := by
        intro b t hb
        have := val_lt oc
        exact holds_8 hb (by rw [List.length_take]; omega)
      have h2 := ops_write hk (ops.take 16) (fun op ho => hok op (List.mem_of_mem_take ho))
      have h3 := ih (ops.drop 16) (by rw [List.length_drop]; omega) (fun op ho => hok op (List.mem_of_mem_drop ho))
      have := (hw.seq h2).seq h3
      intro b t hb
      obtain ⟨b', e, h'⟩ := this b t hb
      refine ⟨b', ?_, h'⟩
      rw [← e]
      have hm : min ops.length 16 = (ops.take 16).length := by rw [List.length_take, Nat.min_comm]
      have ht : ops.take (min ops.length 16) = ops.take 16 := by
        rcases Nat.le_total ops.length 16 with hh | hh
        · rw [Nat.min_eq_left hh, List.take_length, List.take_of_length_le hh]
        · rw [Nat.min_eq_right hh]
      have hd : ops.drop (min ops.length 16) = ops.drop 16 := by
        rcases Nat.le_total ops.length 16 with hh | hh
        · rw [Nat.min_eq_left hh, List.drop_length, List.drop_of_length_le hh]
        · rw [Nat.min_eq_right hh]
      rw [outputOps, if_pos hp]
      have hh := header_eq oc (min ops.length 16) (by omega) (by omega)
      simp only [ht, hd, hh]
      rw [hm]
      simp only [bind, Except.bind]
      cases storeBits8 b (16 * oc.val + ((ops.take 16).length - 1)) with
      | error e => rfl
      | ok b => simp only
    · have := List.length_eq_zero_iff.1 (by omega : ops.length = 0)
      subst this
      exact Writes.nil

theorem blocksE_append (p : IntPack) (codes : List (List Bool)) (xs ys : List (Opcode × List Op)) :
    blocksE p codes (xs ++ ys) = (blocksE p codes xs).seq (blocksE p codes ys) := by
  induction xs with
  | nil => funext n; simp [blocksE, Emit.seq, Emit.nil]
  | cons x xs ih =>
    funext n
    simp only [List.cons_append, blocksE, ih, Emit.seq, List.append_assoc, List.length_append, Nat.add_assoc]

theorem outputAll_writes {p : Packing} {codes : List (List Bool)} (hk : StrOk p.huff codes) (gs : Groups)
    (h : GroupsOk p.ints gs) : Writes (outputAll p gs) (blocksE p.ints codes (blocks gs)) := by
  induction gs with
  | nil => exact Writes.nil
  | cons g gs ih =>
    have h1 := outputOps_writes hk g.1 g.2.length g.2 le_rfl (fun op ho => (h g (by simp) op ho).2)
    have := h1.seq (ih fun g' hg => h g' (by simp [hg]))
    simp only [blocks, List.flatMap_cons, blocksE_append] at this ⊢
    exact this

/-! ### Frames -/

theorem storeBits_mod (b : BitBucket) (inp : List Nat) (n m : Nat) (h : n % 8 = m % 8) :
    storeBits b inp n = storeBits b inp m := by
  have h1 : leftoverBits n = leftoverBits m := by simp only [leftoverBits, h]
  have h2 : (b.outBoff + n) % 8 = (b.outBoff + m) % 8 := by omega
  unfold storeBits
  rw [h1, h2]

/-- The bits of a frame header. -/
def headE (len flags streamId groupId frameType : Nat) : List Bool :=
  natBits 16 len ++ natBits 8 frameType ++ natBits 8 flags ++ natBits 32 (0x80000000 ||| streamId) ++ natBits 8 groupId

theorem headE_len (len flags streamId groupId frameType : Nat) :
    (headE len flags streamId groupId frameType).length = 72 := by simp [headE]

theorem boilerplate_spec {b : BitBucket} {bits : List Bool} (h : Wrote b bits) {len flags streamId groupId frameType : Nat}
    (h1 : len < 2 ^ 16) (h2 : flags < 2 ^ 8) (h3 : streamId < 2 ^ 31) (h4 : groupId < 2 ^ 8) (h5 : frameType < 2 ^ 8) :
    ∃ b', boilerplate b len flags streamId groupId frameType = .ok b' ∧
      Wrote b' (bits ++ headE len flags streamId groupId frameType) := by
  obtain ⟨b1, e1, w1⟩ := wrote_16 h h1
  obtain ⟨b2, e2, w2⟩ := wrote_8 w1 h5
  obtain ⟨b3, e3, w3⟩ := wrote_8 w2 h2
  have hor : 0x80000000 ||| streamId = 2 ^ 31 + streamId := by
    have := Nat.two_pow_add_eq_or_of_lt (b := streamId) (i := 31) h3 1
    simpa using this.symm
  obtain ⟨b4, e4, w4⟩ := wrote_32 w3 (v := 0x80000000 ||| streamId) (by rw [hor]; omega)
  obtain ⟨b5, e5, w5⟩ := wrote_8 w4 h4
  have hand : streamId &&& 0x80000000 = 0 := by
    apply Nat.eq_of_testBit_eq
    intro i
    have e : (0x80000000 : Nat) = 2 ^ 31 := by norm_num
    rw [Nat.testBit_and, Nat.zero_testBit, e, Nat.testBit_two_pow]
    by_cases hi : 31 = i
    · subst hi
      rw [Nat.testBit_lt_two_pow h3, Bool.false_and]
    · simp [hi]
  refine ⟨b5, ?_, ?_⟩
  · simp only [boilerplate, bind, Except.bind, e1, e2, e3, hand, ne_eq, not_true_eq_false, if_false, e4, e5]
  · simpa [headE, List.append_assoc] using w5

theorem frameLoop_spec (streamId groupId allowed : Nat) (h3 : streamId < 2 ^ 31) (h4 : groupId < 2 ^ 8)
    (ha : 0 < allowed) (ha' : allowed < 2 ^ 16) (fuel : Nat) : ∀ (payload : List Nat) {b : BitBucket} {bits : List Bool},
    Wrote b bits → (∀ x ∈ payload, x < 256) → payload.length < fuel →
    ∃ b' more, frameLoop streamId groupId allowed fuel b payload payload.length = .ok b' ∧
      Wrote b' (bits ++ headE (min payload.length allowed) 1 streamId groupId 8 ++ bitsOf payload ++ more) ∧
      more.length % 8 = 0 := by
  induction fuel with
  | zero => intro payload b bits _ _ h; omega
  | succ fuel ih =>
    intro payload b bits hw hp hf
    obtain ⟨b1, e1, w1⟩ := boilerplate_spec hw (len := min payload.length allowed) (flags := 1) (frameType := 8)
      (by omega) (by omega) h3 h4 (by omega)
    obtain ⟨b2, e2, w2⟩ := wrote_bytes w1 payload hp
    have e2' : storeBits b1 payload (min payload.length allowed * 8) = .ok b2 := by
      rw [← e2]
      exact storeBits_mod _ _ _ _ (by omega)
    by_cases hle : payload.length ≤ allowed
    · refine ⟨b2, [], ?_, by simpa using w2, rfl⟩
      simp only [frameLoop, if_pos (Nat.min_le_left _ _), bind, Except.bind, e1, e2', if_pos hle]
    · have hl : payload.length - allowed = (payload.drop (min payload.length allowed)).length := by
        rw [List.length_drop]; omega
      obtain ⟨b3, more, e3, w3, hm⟩ := ih (payload.drop (min payload.length allowed)) w2
        (fun x hx => hp x (List.mem_of_mem_drop hx)) (by rw [← hl]; omega)
      refine ⟨b3, headE (min (payload.drop (min payload.length allowed)).length allowed) 1 streamId groupId 8 ++
        bitsOf (payload.drop (min payload.length allowed)) ++ more, ?_, by simpa [List.append_assoc] using w3, ?_⟩
      · simp only [frameLoop, if_pos (Nat.min_le_left _ _), bind, Except.bind, e1, e2', if_neg hle, hl, e3]
      · simp only [List.length_append, headE_len, bitsOf_length]
        omega

theorem taken_aligned (p : IntPack) (codes : List (List Bool)) (bs : List (Opcode × List Op)) : ∀ (lim : Int) (n m : Nat),
    n % 8 = m % 8 → taken p codes lim n bs = taken p codes lim m bs := by
  induction bs with
  | nil => intro lim n m _; rfl
  | cons blk bs ih =>
    intro lim n m h
    simp only [taken]
    rw [blockE_aligned p codes blk n m h,
      ih _ (n + (blockE p codes blk m).length) (m + (blockE p codes blk m).length) (by omega)]

theorem taken_all {p : IntPack} {huff : Option Huffman} {codes : List (List Bool)} (hk : StrOk huff codes)
    (bs : List (Opcode × List Op)) (h : ∀ blk ∈ bs, BlockOk p blk) : ∀ (lim : Int) (n : Nat),
    ((blocksE p codes bs n).length : Int) ≤ lim → taken p codes lim n bs = bs := by
  induction bs with
  | nil => intro lim n _; rfl
  | cons blk bs ih =>
    intro lim n hl
    have h9 := blockE_len hk (h blk (by simp)) n
    simp only [blocksE, Emit.seq, List.length_append, Nat.cast_add] at hl
    rw [taken, if_pos (by omega), ih (fun b hb => h b (by simp [hb])) _ _ (by omega)]

theorem blocks_count {p : IntPack} {huff : Option Huffman} {codes : List (List Bool)} (hk : StrOk huff codes)
    (bs : List (Opcode × List Op)) (h : ∀ blk ∈ bs, BlockOk p blk) : ∀ n : Nat, bs.length ≤ (blocksE p codes bs n).length := by
  induction bs with
  | nil => intro n; simp
  | cons blk bs ih =>
    intro n
    have h9 := blockE_len hk (h blk (by simp)) n
    have := ih (fun b hb => h b (by simp [hb])) (n + (blockE p codes blk n).length)
    simp only [blocksE, Emit.seq, List.length_append, List.length_cons]
    omega

theorem pack_length (x : List Bool) : (pack x).length = (x.length + 7) / 8 := by
  have := congrArg List.length (bits_pack x)
  simp [padZeros] at this
  omega

theorem pack_bits (x : List Bool) (h : x.length % 8 = 0) : bitsOf (pack x) = x := by
  rw [bits_pack]
  simp [padZeros, h]

theorem wire_spec {p : Packing} {codes : List (List Bool)} (hk : StrOk p.huff codes) (gs : Groups) (h : GroupsOk p.ints gs)
    (gid : Nat) (hg : gid < 256) :
    ∃ bytes, opsToRealOps p gs gid = .ok bytes ∧ (∀ x ∈ bytes, x < 256) ∧
      9 + ((blocksE p.ints codes (blocks gs) 0).length + 7) / 8 ≤ bytes.length ∧
      realOpsToOps p bytes = .ok (gid, (taken p.ints codes
        (8 * min (((blocksE p.ints codes (blocks gs) 0).length + 7) / 8) 65527 : Nat) 0 (blocks gs)).flatMap (·.2)) := by
  have hok := blocks_ok h
  obtain ⟨b1, e1, w1⟩ := outputAll_writes hk gs h BitBucket.empty ⟨[], 0⟩ holds_empty
  generalize hP : blocksE p.ints codes (blocks gs) 0 = P at w1 ⊢
  have w1' : Wrote b1 P := by
    simp only [Tape.write, List.nil_append] at w1
    exact w1
  obtain ⟨o1, n1⟩ := wrote_out w1'
  obtain ⟨b2, e2, w2⟩ := boilerplate_spec wrote_empty (len := 0) (flags := 0) (streamId := 0) (groupId := gid)
    (frameType := 0) (by omega) (by omega) (by omega) (by omega) (by omega)
  have n2 : bytesOfStorage b2 = 9 := by
    have := (wrote_out w2).2
    simp only [List.nil_append, headE_len] at this
    rw [bytesOfStorage, this]
    rfl
  have hlen : ((numBits b1 + 7) / 8).toNat = (pack P).length := by
    rw [n1, pack_length]
    omega
  obtain ⟨b3, more, e3, w3, hm⟩ := frameLoop_spec 0xffff gid 65527 (by omega) (by omega) (by omega) (by omega)
    ((pack P).length + 1) (pack P) wrote_empty (pack_lt P) (by omega)
  generalize hA : ([] ++ headE (min (pack P).length 65527) 1 0xffff gid 8 ++ bitsOf (pack P) ++ more) = A at w3
  have hA8 : A.length % 8 = 0 := by
    rw [← hA]
    simp only [List.nil_append, List.length_append, headE_len, bitsOf_length]
    omega
  obtain ⟨o3, n3⟩ := wrote_out w3
  obtain ⟨b4, e4, w4⟩ := wrote_store wrote_empty A
  obtain ⟨o4, n4⟩ := wrote_out w4
  rw [List.nil_append] at o4 n4 w4
  have ser : opsToRealOps p gs gid = .ok (pack A) := by
    have : serialize p gs 0xffff gid = .ok (pack A, (A.length : Int)) := by
      simp only [serialize, bind, Except.bind, e1, e2, n2, hlen, o1, pure, Except.pure]
      simp only [show (2 : Nat) ^ 16 - (9 : Int).toNat = 65527 from rfl, e3, o3, n3]
    simp only [opsToRealOps, bind, Except.bind, this, Int.toNat_natCast, e4, pure, Except.pure, o4]
  have hlA : (pack A).length * 8 = A.length := by rw [pack_length]; omega
  have hsz : 9 + (P.length + 7) / 8 ≤ (pack A).length := by
    have h1 : A.length = 72 + 8 * (pack P).length + more.length := by
      rw [← hA]
      simp only [List.nil_append, List.length_append, headE_len, bitsOf_length]
    have h2 := pack_length P
    omega
  refine ⟨pack A, ser, pack_lt A, hsz, ?_⟩
  have hAform : A = headE (min (pack P).length 65527) 1 0xffff gid 8 ++ (P ++ (padZeros P.length ++ more)) := by
    rw [← hA, bits_pack]
    simp [List.append_assoc]
  obtain ⟨b5, e5, w5⟩ := wrote_store wrote_empty A
  rw [List.nil_append] at w5
  obtain ⟨o5, n5⟩ := wrote_out w5
  have hst := w5.start
  have hout : b5.output.length = (pack A).length := by rw [o5]
  rw [hAform] at hst
  simp only [headE, List.append_assoc] at hst
  obtain ⟨c1, f1, a1⟩ := at_16 (by omega) hst
  obtain ⟨c2, f2, a2⟩ := at_8 (by omega) a1
  obtain ⟨c3, f3, a3⟩ := at_8 (by omega) a2
  obtain ⟨c4, f4, a4⟩ := at_32 (by decide) a3
  obtain ⟨c5, f5, a5⟩ := at_8 (by omega) a4
  generalize hpre : ([] ++ natBits 16 (min (pack P).length 65527) ++ natBits 8 8 ++ natBits 8 1 ++
    natBits 32 (2147483648 ||| 65535) ++ natBits 8 gid) = pre at a5
  have hpl : pre.length = 72 := by rw [← hpre]; simp
  have hPE : blocksE p.ints codes (blocks gs) pre.length = P := by
    rw [← hP]
    exact blocksE_aligned p.ints codes _ _ _ (by rw [hpl])
  have hlim : ((min (pack P).length 65527 * 8 : Nat) : Int) ≤ P.length + 8 := by
    have : (pack P).length = (P.length + 7) / 8 := pack_length P
    omega
  obtain ⟨r, er⟩ := blocks_read hk (blocks gs) hok (8 * c5.output.length) (min (pack P).length 65527 * 8 : Nat) []
    (rest := padZeros P.length ++ more) (b := c5) (pre := pre) (by rw [hPE]; exact a5) (by
      have h1 := at_len a5
      have h2 := blocks_count hk (blocks gs) hok pre.length
      rw [hPE] at h2
      simp only [List.length_append] at h1
      omega) (by rw [hPE]; exact hlim)
  have hdes : deserialize p b5 = .ok (gid, ((taken p.ints codes (min (pack P).length 65527 * 8 : Nat) pre.length
      (blocks gs)).flatMap (·.2))) := by
    have h5 : storeBits BitBucket.empty b5.output (numBits b5).toNat = .ok b5 := by
      rw [o5, n5, Int.toNat_natCast]
      exact e5
    simp only [deserialize, bind, Except.bind, h5, readFrames, f1, f2, f3, f4, f5, er, List.nil_append, pure, Except.pure]
    simp
  have h6 : storeBits BitBucket.empty (pack A) ((pack A).length * 8) = .ok b5 := by rw [hlA]; exact e5
  simp only [realOpsToOps, bind, Except.bind, h6, hdes]
  rw [taken_aligned p.ints codes (blocks gs) _ pre.length 0 (by rw [hpl]), pack_length, Nat.mul_comm]

theorem IsCoder.codes {h : Huffman} (hc : IsCoder h) : ∃ codes, StrOk (some h) codes := by
  obtain ⟨W, ops, ord, table, divisor, tree, hs, ht, hord, hb⟩ := hc
  obtain ⟨hsy, _, hn⟩ := buildCodeTree_spec ops ht
  rcases buildCodeTable_total ord tree 257 hn (hsy.trans hs) hord with ⟨h', codes, e, hc, ho⟩ | e
  · rw [hb] at e
    cases e
    exact ⟨codes, ⟨h, rfl, hc⟩, ho.len⟩
  · rw [hb] at e
    cases e

theorem payload_bits {p : Packing} {codes : List (List Bool)} (hk : StrOk p.huff codes) (gs : Groups)
    (h : GroupsOk p.ints gs) : ∃ b, outputAll p gs BitBucket.empty = .ok b ∧
      numBits b = (blocksE p.ints codes (blocks gs) 0).length := by
  obtain ⟨b, e, w⟩ := outputAll_writes hk gs h BitBucket.empty ⟨[], 0⟩ holds_empty
  refine ⟨b, e, ?_⟩
  simp only [Tape.write, List.nil_append, List.length_nil] at w
  exact (wrote_out w).2

theorem taken_append_lost (p : IntPack) (codes : List (List Bool)) (xs ys : List (Opcode × List Op)) : ∀ (lim : Int) (n : Nat),
    lim ≤ (blocksE p codes xs n).length + 8 → ∃ k, taken p codes lim n (xs ++ ys) = xs.take k := by
  induction xs with
  | nil =>
    intro lim n h
    refine ⟨0, ?_⟩
    simp only [blocksE, Emit.nil, List.length_nil] at h
    cases ys with
    | nil => rfl
    | cons y ys =>
      simp only [List.nil_append, taken]
      rw [if_neg (by omega)]
      rfl
  | cons x xs ih =>
    intro lim n h
    simp only [List.cons_append, taken]
    split
    · simp only [blocksE, Emit.seq, List.length_append, Nat.cast_add] at h
      obtain ⟨k, hk⟩ := ih (lim - (blockE p codes x n).length) (n + (blockE p codes x n).length) (by omega)
      exact ⟨k + 1, by rw [hk]; rfl⟩
    · exact ⟨0, rfl⟩

theorem taken_append_last (p : IntPack) (codes : List (List Bool)) (xs : List (Opcode × List Op))
    (y : Opcode × List Op) : ∀ (lim : Int) (n : Nat),
    ((blocksE p codes xs n).length : Int) + 8 < lim → taken p codes lim n (xs ++ [y]) = xs ++ [y] := by
  induction xs with
  | nil =>
    intro lim n hl
    simp only [blocksE, Emit.nil, List.length_nil] at hl
    simp only [List.nil_append, taken]
    rw [if_pos (by omega)]
  | cons x xs ih =>
    intro lim n hl
    simp only [blocksE, Emit.seq, List.length_append, Nat.cast_add] at hl
    simp only [List.cons_append, taken]
    rw [if_pos (by omega), ih _ _ (by omega)]

end Verif.Delta2
