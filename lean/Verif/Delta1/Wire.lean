import Verif.Delta2.Fields
/-
Model of the wire format of compressor/delta/spdy4_codec_impl.py: packing of fields (lines 117-276), the serialiser and
the deserialiser (lines 278-554).

`PackInt` and `UnpackInt` (197-217, 117-141) are the functions of the same name in delta2.  `UnpackStr` (143-194) does the
same as delta2's for the parameters in `str_pack_params` (no length field, an end-of-string symbol, padding, Huffman
coding); `AdvanceToByteBoundary` is delta2's `AdvanceReadPtrToByteBoundary`.

Simplifications: operations are dictionaries in the code and have a constructor for each opcode here; debug output is
left out.
-/
namespace Verif.Delta1
open Verif Verif.Bits Verif.Huff Verif.Delta2

/-- The keys of `opcodes`, spdy4_codec_impl.py 295-306. -/
inductive Opcode where
  | toggl | trang | clone | kvsto | eref
  deriving DecidableEq, Repr

/-- spdy4_codec_impl.py 295-306 and 313-315, OpcodeToVal. -/
def Opcode.val : Opcode → Nat
  | .toggl => 1
  | .trang => 2
  | .clone => 3
  | .kvsto => 4
  | .eref => 5

/-- `opcode_to_op`, spdy4_codec_impl.py 309-311; `none` is a KeyError. -/
def opcodeOf : Nat → Option Opcode
  | 1 => some .toggl
  | 2 => some .trang
  | 3 => some .clone
  | 4 => some .kvsto
  | 5 => some .eref
  | _ => none

/-- An operation, spdy4_codec_impl.py 295-306: a toggle of an index, of a range of indices (`index_start`, `index`),
a value for the key with the index `key_idx`, a key and a value to be stored, a key and a value not to be stored. -/
inductive Op where
  | toggl (index : Nat)
  | trang (start last : Nat)
  | clone (keyIdx : Nat) (val : Str)
  | kvsto (key val : Str)
  | eref (key val : Str)
  deriving DecidableEq, Repr

/-- `op['opcode']`. -/
def Op.opcode : Op → Opcode
  | .toggl _ => .toggl
  | .trang _ _ => .trang
  | .clone _ _ => .clone
  | .kvsto _ _ => .kvsto
  | .eref _ _ => .eref

/-- spdy4_codec_impl.py 219-252, PackStr with `str_pack_params`: the length is rounded up to whole bytes. -/
def packStr (h : Huffman) (b : BitBucket) (val : Str) : Py BitBucket := do
  let (bytes, _) ← encode h val true
  storeBits b bytes (bytes.length * 8)

/-- spdy4_codec_impl.py 418-434, WriteOpData: the fields in `packing_order` (index, index_start, key_idx, key, val). -/
def writeOp (h : Huffman) (b : BitBucket) : Op → Py BitBucket
  | .toggl i => packInt b 16 i
  | .trang s l => do
    let b ← packInt b 16 l
    packInt b 16 s
  | .clone k v => do
    let b ← packInt b 16 k
    packStr h b v
  | .kvsto k v => do
    let b ← packStr h b k
    packStr h b v
  | .eref k v => do
    let b ← packStr h b k
    packStr h b v

/-- The loop spdy4_codec_impl.py 410-416. -/
def writeOps (h : Huffman) : List Op → BitBucket → Py BitBucket
  | [], b => .ok b
  | op :: ops, b => do
    let b ← writeOp h b op
    writeOps h ops b

/-- spdy4_codec_impl.py 384-416, OutputOps.  The inner loop writes all operations, not only those of this iteration, so the
outer loop runs at most once. -/
def outputOps (h : Huffman) (opcode : Opcode) (ops : List Op) (b : BitBucket) : Py BitBucket :=
  if ops.length = 0 then .ok b
  else do
    let b ← storeBits8 b opcode.val
    let b ← storeBits8 b (min 256 ops.length - 1)
    writeOps h ops b

/-- State of the loop spdy4_codec_impl.py 369-381: toggles and (start, last) of ranges. -/
structure RangeSt where
  ot : List Nat := []
  otr : List (Nat × Nat) := []
  deriving DecidableEq, Repr

/-- spdy4_codec_impl.py 372-381, one toggle. -/
def rangeStep (st : RangeSt) (idx : Nat) : RangeSt :=
  match st.otr.getLast? with
  | some r =>
    if idx = r.2 + 1 then { st with otr := st.otr.dropLast ++ [(r.1, idx)] }
    else rangeElse st idx
  | none => rangeElse st idx
where
  /-- spdy4_codec_impl.py 375-381. -/
  rangeElse (st : RangeSt) (idx : Nat) : RangeSt :=
    match st.ot.getLast? with
    | some i =>
      if idx = i + 1 then { ot := st.ot.dropLast, otr := st.otr ++ [(i, idx)] }
      else { st with ot := st.ot ++ [idx] }
    | none => { st with ot := st.ot ++ [idx] }

/-- spdy4_codec_impl.py 361-382, MutateTogglesToToggleRanges; dictionaries with the same keys and the same opcode are
sorted by their indices. -/
def toggleRanges (toggles : List Nat) : RangeSt :=
  (sortBy (fun a b => decide (a ≤ b)) toggles).foldl rangeStep {}

/-- What MakeOperations returns: the operations by opcode. -/
structure Instrs where
  toggl : List Nat := []
  clone : List (Nat × Str) := []
  kvsto : List Hdr := []
  eref : List Hdr := []
  deriving DecidableEq, Repr

/-- The operations in the order in which they are written, spdy4_codec_impl.py 470-479, by opcode. -/
def Instrs.groups (g : Instrs) : List (Opcode × List Op) :=
  let r := toggleRanges g.toggl
  [(.toggl, r.ot.map .toggl), (.trang, r.otr.map fun x => .trang x.1 x.2),
   (.clone, g.clone.map fun x => .clone x.1 x.2), (.kvsto, g.kvsto.map fun x => .kvsto x.1 x.2),
   (.eref, g.eref.map fun x => .eref x.1 x.2)]

/-- spdy4_codec_impl.py 475-479. -/
def outputAll (h : Huffman) : List (Opcode × List Op) → BitBucket → Py BitBucket
  | [], b => .ok b
  | (oc, ops) :: gs, b => do
    let b ← outputOps h oc ops b
    outputAll h gs b

/-- spdy4_codec_impl.py 436-455, WriteControlFrameStreamId and WriteControlFrameBoilerplate; `abort` is not defined. -/
def boilerplate (b : BitBucket) (frameLen flags streamId groupId frameType : Nat) : Py BitBucket := do
  let b ← storeBits16 b frameLen
  let b ← storeBits8 b flags
  if streamId &&& 0x80000000 ≠ 0 then .error .name
  else do
    let b ← storeBits32 b (0x80000000 ||| streamId)
    let b ← storeBits8 b frameType
    storeBits8 b groupId

/-- The loop spdy4_codec_impl.py 489-501; the payload length plus one is enough fuel if `bytesAllowed` is positive. -/
def frameLoop (streamId groupId bytesAllowed : Nat) : Nat → BitBucket → List Nat → Nat → Py BitBucket
  | 0, _, _, _ => .error .outOfFuel
  | fuel + 1, b, payload, payloadLen => do
    let toConsume := min payloadLen bytesAllowed
    let endOfFrame := if toConsume ≤ payloadLen then 1 else 0
    let b ← boilerplate b toConsume endOfFrame streamId groupId 8
    let b ← storeBits b payload (toConsume * 8)
    if payloadLen ≤ bytesAllowed then .ok b
    else frameLoop streamId groupId bytesAllowed fuel b (payload.drop toConsume) (payloadLen - bytesAllowed)

/-- spdy4_codec_impl.py 457-502, SerializeInstructions. -/
def serialize (h : Huffman) (gs : List (Opcode × List Op)) (streamId groupId : Nat) : Py (List Nat × Int) := do
  let payload ← outputAll h gs BitBucket.empty
  let payloadLen := (numBits payload + 7) / 8
  let frame ← boilerplate BitBucket.empty 0 0 0 groupId 0
  let bytesAllowed := 2 ^ 16 - (bytesOfStorage frame).toNat
  let b ← frameLoop streamId groupId bytesAllowed (payloadLen.toNat + 1) BitBucket.empty payload.output payloadLen.toNat
  pure (b.output, numBits b)

/-- spdy4_codec_impl.py 269-276 and 851-855, PackOps and OpsToRealOps. -/
def opsToRealOps (h : Huffman) (gs : List (Opcode × List Op)) (groupId : Nat) : Py Str := do
  let (bytes, n) ← serialize h gs 1234 groupId
  let data ← storeBits BitBucket.empty bytes n.toNat
  pure data.output

/-- spdy4_codec_impl.py 535-542: the fields of an operation, in `packing_order`. -/
def readOp (h : Huffman) (b : BitBucket) : Opcode → Py (BitBucket × Op)
  | .toggl => do
    let (b, i) ← unpackInt b 16
    pure (b, .toggl i)
  | .trang => do
    let (b, l) ← unpackInt b 16
    let (b, s) ← unpackInt b 16
    pure (b, .trang s l)
  | .clone => do
    let (b, k) ← unpackInt b 16
    let (b, v) ← unpackStr (some h) true true b
    pure (b, .clone k v)
  | .kvsto => do
    let (b, k) ← unpackStr (some h) true true b
    let (b, v) ← unpackStr (some h) true true b
    pure (b, .kvsto k v)
  | .eref => do
    let (b, k) ← unpackStr (some h) true true b
    let (b, v) ← unpackStr (some h) true true b
    pure (b, .eref k v)

/-- The loop spdy4_codec_impl.py 534-546. -/
def readOps (h : Huffman) (opcode : Opcode) : Nat → BitBucket → List Op → Py (BitBucket × List Op)
  | 0, b, ops => .ok (b, ops)
  | n + 1, b, ops => do
    let (b, op) ← readOp h b opcode
    readOps h opcode n b (ops ++ [op])

/-- spdy4_codec_impl.py 527-546: the operations under one header. -/
def readBlock (h : Huffman) (b : BitBucket) (ops : List Op) : Py (BitBucket × List Op) := do
  let (b, x) ← getBits8 b
  let (b, n) ← getBits8 b
  match opcodeOf x with
  | none => .error .key
  | some oc => readOps h oc (n + 1) b ops

/-- The loop spdy4_codec_impl.py 525-552; every round reads at least two bytes, so the number of bits is enough fuel. -/
def readBlocks (h : Huffman) : Nat → BitBucket → Int → List Op → Py (BitBucket × List Op)
  | fuel, b, frameLen, ops =>
    if frameLen > 16 then
      match fuel with
      | 0 => .error .outOfFuel
      | fuel + 1 => do
        let (b', ops) ← readBlock h b ops
        readBlocks h fuel b' (frameLen - (bitsRemaining b - bitsRemaining b')) ops
    else .ok (b, ops)

/-- The loop spdy4_codec_impl.py 514-552. -/
def readFrames (h : Huffman) : Nat → BitBucket → List Op → Py (Nat × List Op)
  | 0, _, _ => .error .outOfFuel
  | fuel + 1, b, ops => do
    let (b, len) ← getBits16 b
    let (b, flags) ← getBits8 b
    let (b, _) ← getBits32 b
    let (b, _) ← getBits8 b
    let (b, groupId) ← getBits8 b
    let (b, ops) ← readBlocks h (8 * b.output.length) b (len * 8 : Nat) ops
    if flags = 0 then readFrames h fuel b ops else pure (groupId, ops)

/-- spdy4_codec_impl.py 504-554, DeserializeInstructions. -/
def deserialize (h : Huffman) (frame : BitBucket) : Py (Nat × List Op) := do
  let b ← storeBits BitBucket.empty frame.output (numBits frame).toNat
  readFrames h (b.output.length + 1) b []

/-- spdy4_codec_impl.py 857-861, RealOpsToOps. -/
def realOpsToOps (h : Huffman) (realops : Str) : Py (Nat × List Op) := do
  let b ← storeBits BitBucket.empty realops (realops.length * 8)
  deserialize h b

end Verif.Delta1
