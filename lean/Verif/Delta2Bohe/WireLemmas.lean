import Verif.Delta2Bohe.Model
import Verif.Delta1.WireLemmas
import Verif.Delta1.CodecLemmas
import Verif.DeltaBohe.WireLemmas
/-
delta2_bohe: what is written.
-/
namespace Verif.Delta2Bohe
open Verif Verif.Bits Verif.Bits.Spec Verif.Huff Verif.Huff.Spec

/-- The values of an operation can be packed: indices of 16 bits, strings of bytes. -/
def OpOk : Op → Prop
  | .toggl i => i < 2 ^ 16
  | .trang s l => s < 2 ^ 16 ∧ l < 2 ^ 16
  | .clone k v _ => k < 2 ^ 16 ∧ ∀ c ∈ v, c < 256
  | .kvsto k v _ => (∀ c ∈ k, c < 256) ∧ ∀ c ∈ v, c < 256

/-- The bits of a string. -/
def strW (codes : List (List Bool)) (huff : Bool) (s : Str) : List Bool := if huff then Delta1.strB codes s else bitsOf s

/-- The bits of an operation. -/
def opW (codes : List (List Bool)) : Op → List Bool
  | .toggl i => natBits 16 i
  | .trang s l => natBits 16 l ++ natBits 16 s
  | .clone k v huff => natBits 16 k ++ strW codes huff v
  | .kvsto k v huff => strW codes huff k ++ strW codes huff v

/-- The bits of the operations with one opcode. -/
def blockW (codes : List (List Bool)) (blk : Nat × List Op) : List Bool :=
  if blk.2.length = 0 then [] else natBits 8 blk.1 ++ natBits 8 (min 256 blk.2.length - 1) ++ blk.2.flatMap (opW codes)

/-- The bits of the operations of a message. -/
def payloadW (codes : List (List Bool)) (gs : List (Nat × List Op)) : List Bool := gs.flatMap (blockW codes)

theorem str_writes {h : Huffman} {codes : List (List Bool)} (hc : Codes h codes) (h257 : codes.length = 257) {s : Str}
    (hs : ∀ c ∈ s, c < 256) (huff : Bool) {b : BitBucket} {bits : List Bool} (hw : Wrote b bits) :
    ∃ b', packStr h huff b s = .ok b' ∧ Wrote b' (bits ++ strW codes huff s) := by
  cases huff with
  | false =>
    obtain ⟨b', e2, w⟩ := wrote_bytes hw s hs
    refine ⟨b', ?_, ?_⟩
    · rw [Nat.mul_comm] at e2
      simpa [packStr] using e2
    · simpa [strW] using w
  | true =>
    obtain ⟨b', e2, w⟩ := Delta1.str_writes hc h257 hs hw
    exact ⟨b', by simpa [packStr] using e2, by simpa [strW] using w⟩

theorem op_writes {h : Huffman} {codes : List (List Bool)} (hc : Codes h codes) (h257 : codes.length = 257) {op : Op}
    (ho : OpOk op) {b : BitBucket} {bits : List Bool} (hw : Wrote b bits) :
    ∃ b', writeOp h b op = .ok b' ∧ Wrote b' (bits ++ opW codes op) := by
  cases op with
  | toggl i => exact Delta1.int_writes hw ho
  | trang s l =>
    obtain ⟨b1, e1, w1⟩ := Delta1.int_writes hw ho.2
    obtain ⟨b2, e2, w2⟩ := Delta1.int_writes w1 ho.1
    exact ⟨b2, by simp only [writeOp, bind, Except.bind, e1, e2], by simpa [opW] using w2⟩
  | clone k v huff =>
    obtain ⟨b1, e1, w1⟩ := Delta1.int_writes hw ho.1
    obtain ⟨b2, e2, w2⟩ := str_writes hc h257 ho.2 huff w1
    exact ⟨b2, by simp only [writeOp, bind, Except.bind, e1, e2], by simpa [opW] using w2⟩
  | kvsto k v huff =>
    obtain ⟨b1, e1, w1⟩ := str_writes hc h257 ho.1 huff hw
    obtain ⟨b2, e2, w2⟩ := str_writes hc h257 ho.2 huff w1
    exact ⟨b2, by simp only [writeOp, bind, Except.bind, e1, e2], by simpa [opW] using w2⟩

theorem ops_write {h : Huffman} {codes : List (List Bool)} (hc : Codes h codes) (h257 : codes.length = 257) (ops : List Op) :
    (∀ op ∈ ops, OpOk op) → ∀ {b : BitBucket} {bits : List Bool}, Wrote b bits →
    ∃ b', writeOps h ops b = .ok b' ∧ Wrote b' (bits ++ ops.flatMap (opW codes)) := by
  induction ops with
  | nil => intro _ b bits hw; exact ⟨b, rfl, by simpa using hw⟩
  | cons op ops ih =>
    intro ho b bits hw
    obtain ⟨b1, e1, w1⟩ := op_writes hc h257 (ho op (by simp)) hw
    obtain ⟨b2, e2, w2⟩ := ih (fun o hm => ho o (by simp [hm])) w1
    exact ⟨b2, by simp only [writeOps, bind, Except.bind, e1, e2], by simpa using w2⟩

theorem outputOps_writes {h : Huffman} {codes : List (List Bool)} (hc : Codes h codes) (h257 : codes.length = 257)
    {opcode : Nat} (hoc : opcode < 2 ^ 8) (ops : List Op) (ho : ∀ op ∈ ops, OpOk op) {b : BitBucket} {bits : List Bool} (hw : Wrote b bits) :
    ∃ b', outputOps h opcode ops b = .ok b' ∧ Wrote b' (bits ++ blockW codes (opcode, ops)) := by
  unfold outputOps blockW
  by_cases h0 : ops.length = 0
  · rw [if_pos h0, if_pos h0]
    exact ⟨b, rfl, by simpa using hw⟩
  · rw [if_neg h0, if_neg h0]
    obtain ⟨b1, e1, w1⟩ := wrote_8 hw hoc
    obtain ⟨b2, e2, w2⟩ := wrote_8 w1 (v := min 256 ops.length - 1) (by omega)
    obtain ⟨b3, e3, w3⟩ := ops_write hc h257 ops ho w2
    exact ⟨b3, by simp only [bind, Except.bind, e1, e2, e3], by simpa using w3⟩

/-- All operations can be packed. -/
def GroupsOk (gs : List (Nat × List Op)) : Prop := ∀ g ∈ gs, g.1 < 2 ^ 8 ∧ ∀ op ∈ g.2, OpOk op

theorem outputAll_writes {h : Huffman} {codes : List (List Bool)} (hc : Codes h codes) (h257 : codes.length = 257)
    (gs : List (Nat × List Op)) : GroupsOk gs → ∀ {b : BitBucket} {bits : List Bool}, Wrote b bits →
    ∃ b', outputAll h gs b = .ok b' ∧ Wrote b' (bits ++ payloadW codes gs) := by
  induction gs with
  | nil => intro _ b bits hw; exact ⟨b, rfl, by simpa [payloadW] using hw⟩
  | cons g gs ih =>
    intro hg b bits hw
    obtain ⟨oc, ops⟩ := g
    obtain ⟨b1, e1, w1⟩ := outputOps_writes hc h257 (hg (oc, ops) (by simp)).1 ops (hg (oc, ops) (by simp)).2 hw
    obtain ⟨b2, e2, w2⟩ := ih (fun g hm => hg g (by simp [hm])) w1
    exact ⟨b2, by simp only [outputAll, bind, Except.bind, e1, e2], by simpa [payloadW] using w2⟩

theorem strW_len (codes : List (List Bool)) (huff : Bool) (s : Str) : (strW codes huff s).length % 8 = 0 := by
  unfold strW
  split
  · exact Delta1.strB_len codes s
  · simp

theorem blockW_len (codes : List (List Bool)) (blk : Nat × List Op) : (blockW codes blk).length % 8 = 0 := by
  have : (blk.2.flatMap (opW codes)).length % 8 = 0 := by
    refine DeltaBohe.flatMap_mod _ _ fun op _ => ?_
    cases op with
    | toggl i => simp [opW]
    | trang s l => simp [opW]
    | clone k v huff => have := strW_len codes huff v; simp only [opW, List.length_append, natBits_length]; omega
    | kvsto k v huff =>
      have := strW_len codes huff v
      have := strW_len codes huff k
      simp only [opW, List.length_append]; omega
  unfold blockW
  split
  · rfl
  · simp only [List.length_append, natBits_length]; omega

theorem payloadW_len (codes : List (List Bool)) (gs : List (Nat × List Op)) : (payloadW codes gs).length % 8 = 0 :=
  DeltaBohe.flatMap_mod _ _ fun blk _ => blockW_len codes blk

/-- All operations of a message can be packed. -/
def InstrsOk (g : Instrs) : Prop :=
  (∀ i ∈ g.toggl, i < 2 ^ 16) ∧ (∀ x ∈ g.clone, x.1 < 2 ^ 16 ∧ ∀ c ∈ x.2.1, c < 256) ∧
    ∀ x ∈ g.kvsto, (∀ c ∈ x.1, c < 256) ∧ ∀ c ∈ x.2.1, c < 256

theorem groups_ok {g : Instrs} (hg : InstrsOk g) : GroupsOk g.groups := by
  obtain ⟨ht, htr⟩ := DeltaBohe.ranges_lt hg.1
  intro x hx
  simp only [Instrs.groups, List.mem_cons, List.not_mem_nil, or_false] at hx
  rcases hx with rfl | rfl | rfl | rfl
  · exact ⟨by simp, fun op hop => by obtain ⟨i, hi, rfl⟩ := List.mem_map.1 hop; exact ht i hi⟩
  · exact ⟨by simp, fun op hop => by obtain ⟨i, hi, rfl⟩ := List.mem_map.1 hop; exact htr i hi⟩
  · exact ⟨by simp, fun op hop => by obtain ⟨i, hi, rfl⟩ := List.mem_map.1 hop; exact hg.2.1 i hi⟩
  · exact ⟨by simp, fun op hop => by obtain ⟨i, hi, rfl⟩ := List.mem_map.1 hop; exact hg.2.2 i hi⟩

/-- What is sent depends on the bits of the operations only. -/
theorem wire_total {h : Huffman} {codes : List (List Bool)} (hc : Codes h codes) (h257 : codes.length = 257) (P : List Bool)
    (gid : Nat) (hid : gid < 256) : ∃ bytes, (∀ x ∈ bytes, x < 256) ∧
      ∀ g, InstrsOk g → payloadW codes g.groups = P → opsToRealOps h g gid = .ok bytes := by
  by_cases hP8 : P.length % 8 = 0
  swap
  · exact ⟨[], by simp, fun g _ hg => absurd (hg ▸ payloadW_len codes g.groups) hP8⟩
  obtain ⟨b2, e2, w2⟩ := Delta1.boilerplate_spec wrote_empty (len := 0) (flags := 0) (streamId := 0) (groupId := gid)
    (frameType := 0) (by omega) (by omega) (by omega) (by omega) (by omega)
  have n2 : bytesOfStorage b2 = 9 := by
    have := (wrote_out w2).2
    simp only [List.nil_append, Delta1.headB_len] at this
    rw [bytesOfStorage, this]
    rfl
  have hpl : (pack P).length = P.length / 8 := by rw [Delta2.pack_length]; omega
  obtain ⟨b3, more, e3, w3, hm, hm0⟩ := Delta1.frameLoop_spec 1234 gid 65527 (by omega) (by omega) (by omega) (by omega)
    ((pack P).length + 1) (pack P) wrote_empty (pack_lt P) (by omega)
  generalize hA : ([] ++ Delta1.headB (min (pack P).length 65527) 1 1234 gid 8 ++ bitsOf (pack P) ++ more) = A at w3
  obtain ⟨o3, n3⟩ := wrote_out w3
  obtain ⟨b4, e4, w4⟩ := wrote_store wrote_empty A
  obtain ⟨o4, n4⟩ := wrote_out w4
  rw [List.nil_append] at o4 n4 w4
  refine ⟨pack A, pack_lt A, fun g hg hP => ?_⟩
  obtain ⟨b1, e1, w1⟩ := outputAll_writes hc h257 g.groups (groups_ok hg) wrote_empty
  rw [List.nil_append, hP] at w1
  obtain ⟨o1, n1⟩ := wrote_out w1
  have hlen : ((numBits b1 + 7) / 8).toNat = (pack P).length := by
    rw [n1, hpl]
    omega
  have : serialize h g.groups 1234 gid = .ok (pack A, (A.length : Int)) := by
    simp only [serialize, bind, Except.bind, e1, e2, n2, hlen, o1, pure, Except.pure]
    simp only [show (2 : Nat) ^ 16 - (9 : Int).toNat = 65527 from rfl, e3, o3, n3]
  simp only [opsToRealOps, bind, Except.bind, this, Int.toNat_natCast, e4, pure, Except.pure, o4]

/-! ### Everything Huffman coded -/

/-- An operation for the receiver. -/
def Op.plain : Op → Delta1.Op
  | .toggl i => .toggl i
  | .trang s l => .trang s l
  | .clone k v _ => .clone k v
  | .kvsto k v _ => .kvsto k v

/-- The operation's strings are Huffman coded. -/
def Op.coded : Op → Bool
  | .toggl _ => true
  | .trang _ _ => true
  | .clone _ _ huff => huff
  | .kvsto _ _ huff => huff

theorem writeOp_plain (h : Huffman) (b : BitBucket) (op : Op) (ho : op.coded = true) : writeOp h b op = Delta1.writeOp h b op.plain := by
  cases op with
  | toggl i => rfl
  | trang s l => rfl
  | clone k v huff => cases ho; rfl
  | kvsto k v huff => cases ho; rfl

theorem writeOps_plain (h : Huffman) : ∀ (ops : List Op) (b : BitBucket), (∀ op ∈ ops, op.coded = true) →
    writeOps h ops b = Delta1.writeOps h (ops.map Op.plain) b := by
  intro ops
  induction ops with
  | nil => intro b _; rfl
  | cons op ops ih =>
    intro b hc
    simp only [writeOps, Delta1.writeOps, List.map_cons, writeOp_plain h b op (hc op (by simp)), bind, Except.bind]
    cases Delta1.writeOp h b op.plain with
    | error e => rfl
    | ok b => exact ih b fun o ho => hc o (by simp [ho])

theorem outputOps_plain (h : Huffman) (oc : Delta1.Opcode) (ops : List Op) (b : BitBucket) (hc : ∀ op ∈ ops, op.coded = true) :
    outputOps h oc.val ops b = Delta1.outputOps h oc (ops.map Op.plain) b := by
  have : ∀ b, writeOps h ops b = Delta1.writeOps h (ops.map Op.plain) b := fun b => writeOps_plain h ops b hc
  simp only [outputOps, Delta1.outputOps, List.length_map, this]

theorem outputAll_plain (h : Huffman) : ∀ (gs : List (Delta1.Opcode × List Op)) (b : BitBucket), (∀ g ∈ gs, ∀ op ∈ g.2, op.coded = true) →
    outputAll h (gs.map fun g => (g.1.val, g.2)) b = Delta1.outputAll h (gs.map fun g => (g.1, g.2.map Op.plain)) b := by
  intro gs
  induction gs with
  | nil => intro b _; rfl
  | cons g gs ih =>
    intro b hc
    simp only [outputAll, Delta1.outputAll, List.map_cons, outputOps_plain h g.1 g.2 b (hc g (by simp)), bind, Except.bind]
    cases Delta1.outputOps h g.1 (g.2.map Op.plain) b with
    | error e => rfl
    | ok b => exact ih b fun o ho => hc o (by simp [ho])

/-- The same operations, by opcode, for the receiver. -/
def Instrs.plain (g : Instrs) : List (Delta1.Opcode × List Delta1.Op) :=
  let r := Delta1.toggleRanges g.toggl
  [(.toggl, r.ot.map .toggl), (.trang, r.otr.map fun x => .trang x.1 x.2), (.clone, g.clone.map fun x => .clone x.1 x.2.1),
   (.kvsto, g.kvsto.map fun x => .kvsto x.1 x.2.1)]

theorem plain_ops (g : Instrs) : g.plain.flatMap (·.2) = g.ops := by simp [Instrs.plain, Instrs.ops]

theorem opsToRealOps_plain (h : Huffman) (g : Instrs) (gid : Nat) (h1 : ∀ x ∈ g.clone, x.2.2 = true) (h2 : ∀ x ∈ g.kvsto, x.2.2 = true) :
    opsToRealOps h g gid = Delta1.opsToRealOps h g.plain gid := by
  have e : ∀ b, outputAll h g.groups b = Delta1.outputAll h g.plain b := by
    intro b
    have := outputAll_plain h [(.toggl, (Delta1.toggleRanges g.toggl).ot.map .toggl),
      (.trang, (Delta1.toggleRanges g.toggl).otr.map fun x => .trang x.1 x.2), (.clone, g.clone.map fun x => .clone x.1 x.2.1 x.2.2),
      (.kvsto, g.kvsto.map fun x => .kvsto x.1 x.2.1 x.2.2)] b (by
        intro x hx op hop
        simp only [List.mem_cons, List.not_mem_nil, or_false] at hx
        rcases hx with rfl | rfl | rfl | rfl <;> obtain ⟨i, hi, rfl⟩ := List.mem_map.1 hop
        · rfl
        · rfl
        · exact h1 i hi
        · exact h2 i hi)
    simpa [Instrs.groups, Instrs.plain, Delta1.Opcode.val, Op.plain, List.map_map, Function.comp_def] using this
  simp only [opsToRealOps, Delta1.opsToRealOps, serialize, Delta1.serialize, e]

/-- Reading what was written, if all strings are Huffman coded. -/
theorem wire_read {h : Huffman} {codes : List (List Bool)} (hc : Codes h codes) (h257 : codes.length = 257) {g : Instrs} (hg : InstrsOk g)
    (h1 : ∀ x ∈ g.clone, x.2.2 = true) (h2 : ∀ x ∈ g.kvsto, x.2.2 = true) (hle1 : g.toggl.length ≤ 256) (hle2 : g.clone.length ≤ 256)
    (hle3 : g.kvsto.length ≤ 256) (gid : Nat) (hid : gid < 256) {bytes : Str} (hb : opsToRealOps h g gid = .ok bytes)
    (hfit : bytes.length ≤ 65536) : Delta1.realOpsToOps h bytes = .ok (gid, g.ops) := by
  rw [opsToRealOps_plain h g gid h1 h2] at hb
  obtain ⟨hp, hle, -⟩ := Delta1.toggleRanges_spec g.toggl
  have hlen := hp.length_eq
  simp only [Delta1.RangeSt.all, List.length_append] at hlen
  have hotr : (Delta1.toggleRanges g.toggl).otr.length ≤ ((Delta1.toggleRanges g.toggl).otr.flatMap fun r => Delta1.range r.1 r.2).length := by
    generalize (Delta1.toggleRanges g.toggl).otr = l at hle
    induction l with
    | nil => simp
    | cons x l ih =>
      have := ih fun r hr => hle r (by simp [hr])
      have := hle x (by simp)
      simp only [List.length_cons, List.flatMap_cons, List.length_append, Delta1.range, List.length_map, List.length_range]
      simp only [Delta1.range] at *
      omega
  obtain ⟨ht, htr⟩ := DeltaBohe.ranges_lt hg.1
  have hok : Delta1.GroupsOk g.plain := by
    intro x hx op hop
    simp only [Instrs.plain, List.mem_cons, List.not_mem_nil, or_false] at hx
    rcases hx with rfl | rfl | rfl | rfl <;> obtain ⟨i, hi, rfl⟩ := List.mem_map.1 hop
    · exact ⟨rfl, ht i hi⟩
    · exact ⟨rfl, htr i hi⟩
    · exact ⟨rfl, hg.2.1 i hi⟩
    · exact ⟨rfl, hg.2.2 i hi⟩
  have := Delta1.wire_ok hc h257 g.plain hok (by
    intro x hx
    simp only [Instrs.plain, List.mem_cons, List.not_mem_nil, or_false] at hx
    rcases hx with rfl | rfl | rfl | rfl <;> simp only [List.length_map] <;> omega) gid hid hb hfit
  rwa [plain_ops] at this

end Verif.Delta2Bohe
