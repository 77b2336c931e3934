import Verif.Delta2.Fields
/-
Model of the serialiser and deserialiser of compressor/delta2/spdy4_codec_impl.py (lines 278-309,
483-673 and 873-893).

Simplifications: verbose output is left out.  `index` and `index_start` are always packed alike
(lines 278-284, 812-821), so there is one choice for both.
-/
namespace Verif.Delta2
open Verif Verif.Bits Verif.Huff

/-- The keys of `g_opcodes`, spdy4_codec_impl.py 295-304. -/
inductive Opcode where
  | stoggl | etoggl | strang | etrang | sclone | eclone | skvsto | ekvsto
  deriving DecidableEq, Repr

/-- spdy4_codec_impl.py 313-315, OpcodeToVal. -/
def Opcode.val : Opcode → Nat
  | .stoggl => 0
  | .etoggl => 1
  | .strang => 2
  | .etrang => 3
  | .sclone => 4
  | .eclone => 5
  | .skvsto => 6
  | .ekvsto => 7

/-- The fields of an operation besides the opcode. -/
inductive Field where
  | index | indexStart | key | val
  deriving DecidableEq, Repr

/-- `g_packing_order` without the opcode, spdy4_codec_impl.py 287-292. -/
def packingOrder : List Field := [.index, .indexStart, .key, .val]

/-- The fields listed in `g_opcodes`, spdy4_codec_impl.py 295-304. -/
def Opcode.fields : Opcode → List Field
  | .stoggl => [.index]
  | .etoggl => [.index]
  | .strang => [.index, .indexStart]
  | .etrang => [.index, .indexStart]
  | .sclone => [.index, .val]
  | .eclone => [.index, .val]
  | .skvsto => [.key, .val]
  | .ekvsto => [.key, .val]

/-- `g_opcode_to_op`, spdy4_codec_impl.py 307-309; `none` is a KeyError. -/
def opcodeOf : Nat → Option Opcode
  | 0 => some .stoggl
  | 1 => some .etoggl
  | 2 => some .strang
  | 3 => some .etrang
  | 4 => some .sclone
  | 5 => some .eclone
  | 6 => some .skvsto
  | 7 => some .ekvsto
  | _ => none

/-- An operation: a dictionary with some of these keys. -/
structure Op where
  opcode : Opcode
  index : Option Int := none
  indexStart : Option Int := none
  key : Option Str := none
  val : Option Str := none
  deriving DecidableEq, Repr

/-- How indices are packed, spdy4_codec_impl.py 278-284 and 812-821. -/
inductive IntPack where
  | int8 | int16 | varint
  deriving DecidableEq, Repr

/-- The pack function of `index` and `index_start`. -/
def IntPack.pack : IntPack → BitBucket → Int → Py BitBucket
  | .int8 => packInt8
  | .int16 => packInt16
  | .varint => packVarInt

/-- The unpack function of `index` and `index_start`. -/
def IntPack.unpack : IntPack → BitBucket → Py (BitBucket × Int)
  | .int8 => unpackInt8
  | .int16 => unpackInt16
  | .varint => unpackVarInt

/-- What a codec object uses to pack fields: `packing_instructions` and `huffman`. -/
structure Packing where
  ints : IntPack
  huff : Option Huffman

/-- The pack functions applied to the value of a field, if the operation has it; strings are padded
and use Huffman coding (spdy4_codec_impl.py 101-105). -/
def packField (p : Packing) (b : BitBucket) (op : Op) : Field → Py BitBucket
  | .index => match op.index with
    | none => .ok b
    | some v => p.ints.pack b v
  | .indexStart => match op.indexStart with
    | none => .ok b
    | some v => p.ints.pack b v
  | .key => match op.key with
    | none => .ok b
    | some s => packStr p.huff true true b s
  | .val => match op.val with
    | none => .ok b
    | some s => packStr p.huff true true b s

/-- spdy4_codec_impl.py 522-538, WriteOpData. -/
def writeFields (p : Packing) (op : Op) : List Field → BitBucket → Py BitBucket
  | [], b => .ok b
  | f :: fs, b => do
    let b ← packField p b op f
    writeFields p op fs b

/-- spdy4_codec_impl.py 512-520: the operations of one block. -/
def writeOps (p : Packing) : List Op → BitBucket → Py BitBucket
  | [], b => .ok b
  | op :: ops, b => do
    let b ← writeFields p op packingOrder b
    writeOps p ops b

/-- spdy4_codec_impl.py 505-520, OutputOps; the number of operations is enough fuel. -/
def outputOps (p : Packing) (opcode : Opcode) : Nat → List Op → BitBucket → Py BitBucket
  | fuel, ops, b =>
    if ops.length > 0 then
      match fuel with
      | 0 => .error .outOfFuel
      | fuel + 1 => do
        let opsToGo := min ops.length 16
        let b ← storeBits8 b (opcode.val <<< 4 ||| ((opsToGo - 1) &&& 0x0f))
        let b ← writeOps p (ops.take opsToGo) b
        outputOps p opcode fuel (ops.drop opsToGo) b
    else .ok b

/-- The operations by opcode, in the order in which `iteritems` delivers them. -/
abbrev Groups := List (Opcode × List Op)

/-- spdy4_codec_impl.py 582-584: the payload. -/
def outputAll (p : Packing) : Groups → BitBucket → Py BitBucket
  | [], b => .ok b
  | (opcode, ops) :: gs, b => do
    let b ← outputOps p opcode ops.length ops b
    outputAll p gs b

/-- spdy4_codec_impl.py 540-558, WriteControlFrameStreamId and WriteControlFrameBoilerplate;
`abort` is not defined. -/
def boilerplate (b : BitBucket) (frameLen : Nat) (flags : Nat) (streamId groupId frameType : Nat) : Py BitBucket := do
  let b ← storeBits16 b frameLen
  let b ← storeBits8 b frameType
  let b ← storeBits8 b flags
  if streamId &&& 0x80000000 ≠ 0 then .error .name
  else do
    let b ← storeBits32 b (0x80000000 ||| streamId)
    storeBits8 b groupId

/-- The loop spdy4_codec_impl.py 599-613; the payload length plus one is enough fuel if
`bytesAllowed` is positive. -/
def frameLoop (streamId groupId bytesAllowed : Nat) : Nat → BitBucket → List Nat → Nat → Py BitBucket
  | 0, _, _, _ => .error .outOfFuel
  | fuel + 1, b, payload, payloadLen => do
    let toConsume := min payloadLen bytesAllowed
    let endOfFrame := if toConsume ≤ payloadLen then 1 else 0
    let b ← boilerplate b toConsume endOfFrame streamId groupId 8
    let b ← storeBits b payload (toConsume * 8)
    if payloadLen ≤ bytesAllowed then .ok b
    else frameLoop streamId groupId bytesAllowed fuel b (payload.drop toConsume) (payloadLen - bytesAllowed)

/-- spdy4_codec_impl.py 560-618, SerializeInstructions. -/
def serialize (p : Packing) (groups : Groups) (streamId groupId : Nat) : Py (List Nat × Int) := do
  let payload ← outputAll p groups BitBucket.empty
  let payloadLen := (numBits payload + 7) / 8
  let frame ← boilerplate BitBucket.empty 0 0 0 groupId 0
  let bytesAllowed := 2 ^ 16 - (bytesOfStorage frame).toNat
  let b ← frameLoop streamId groupId bytesAllowed (payloadLen.toNat + 1) BitBucket.empty payload.output payloadLen.toNat
  pure (b.output, numBits b)

/-- spdy4_codec_impl.py 873-883, OpsToRealOps. -/
def opsToRealOps (p : Packing) (groups : Groups) (groupId : Nat) : Py Str := do
  let (bytes, n) ← serialize p groups 0xffff groupId
  let data ← storeBits BitBucket.empty bytes n.toNat
  pure data.output

/-- The unpack functions, storing into the operation. -/
def unpackField (p : Packing) (b : BitBucket) (op : Op) : Field → Py (BitBucket × Op)
  | .index => do
    let (b, v) ← p.ints.unpack b
    pure (b, { op with index := some v })
  | .indexStart => do
    let (b, v) ← p.ints.unpack b
    pure (b, { op with indexStart := some v })
  | .key => do
    let (b, s) ← unpackStr p.huff true true b
    pure (b, { op with key := some s })
  | .val => do
    let (b, s) ← unpackStr p.huff true true b
    pure (b, { op with val := some s })

/-- spdy4_codec_impl.py 653-661. -/
def readFields (p : Packing) (fields : List Field) : List Field → BitBucket → Op → Py (BitBucket × Op)
  | [], b, op => .ok (b, op)
  | f :: fs, b, op =>
    if f ∈ fields then do
      let (b, op) ← unpackField p b op f
      readFields p fields fs b op
    else readFields p fields fs b op

/-- spdy4_codec_impl.py 651-664: the operations of one block.  `none` is an exception, the operations
read before stay. -/
def readOps (p : Packing) (opcode : Opcode) : Nat → BitBucket → List Op → List Op × Option BitBucket
  | 0, b, ops => (ops, some b)
  | n + 1, b, ops =>
    match readFields p opcode.fields packingOrder b { opcode := opcode } with
    | .ok (b, op) => readOps p opcode n b (ops ++ [op])
    | .error _ => (ops, none)

/-- spdy4_codec_impl.py 643-664: one block. -/
def readBlock (p : Packing) (b : BitBucket) (ops : List Op) : List Op × Option BitBucket :=
  match getBits8 b with
  | .error _ => (ops, none)
  | .ok (b, x) =>
    match opcodeOf (x >>> 4) with
    | none => (ops, none)
    | some opcode => readOps p opcode ((x &&& 0x0f) + 1) b ops

/-- The loop spdy4_codec_impl.py 642-671; every block has at least one byte, so the number of bits is
enough fuel. -/
def readBlocks (p : Packing) : Nat → BitBucket → Int → List Op → Py (List Op × Option BitBucket)
  | fuel, b, frameLen, ops =>
    if frameLen > 8 then
      match fuel with
      | 0 => .error .outOfFuel
      | fuel + 1 =>
        match readBlock p b ops with
        | (ops, none) => .ok (ops, none)
        | (ops, some b') => readBlocks p fuel b' (frameLen - (bitsRemaining b - bitsRemaining b')) ops
    else .ok (ops, some b)

/-! ### The bucket after an exception

The bit bucket is mutable: after an exception it is where the last successful read left it, since `GetBits` checks first
(bit_bucket.py 209-212).  The functions below follow those above and give the bucket at the exception; what they give
without an exception is never used. -/

/-- huffman.py 326-330: within the tree. -/
def walkLeft : DTree → BitBucket → BitBucket
  | .node l r, b =>
    match getBit b with
    | .error _ => b
    | .ok (b, bit) => if bit = 0 then walkLeft l b else walkLeft r b
  | _, b => b

/-- huffman.py 325-336, as called by UnpackStr. -/
def decodeLeft (tree : DTree) : Nat → BitBucket → BitBucket
  | 0, b => b
  | fuel + 1, b =>
    match walk tree b with
    | .error _ => walkLeft tree b
    | .ok (b, sym, _) => if sym = 256 then b else decodeLeft tree fuel b

/-- spdy4_codec_impl.py 192-196. -/
def asciiLeft : Nat → BitBucket → BitBucket
  | 0, b => b
  | fuel + 1, b =>
    match getBits8 b with
    | .error _ => b
    | .ok (b, c) => if c = 0 then b else asciiLeft fuel b

/-- spdy4_codec_impl.py 160-200. -/
def strLeft (huff : Option Huffman) (b : BitBucket) : BitBucket :=
  match huff with
  | some h => decodeLeft h.tree (8 * b.output.length + 1) b
  | none => asciiLeft (b.output.length + 1) b

/-- spdy4_codec_impl.py 154-157. -/
def varLoopLeft : Nat → BitBucket → Nat → BitBucket
  | 0, b, _ => b
  | fuel + 1, b, n =>
    if n &&& 8 ≠ 0 then
      match getBits4 b with
      | .error _ => b
      | .ok (b, n) => varLoopLeft fuel b n
    else b

/-- spdy4_codec_impl.py 144-158; 107-111 for the others, which read once. -/
def IntPack.left : IntPack → BitBucket → BitBucket
  | .int8, b => b
  | .int16, b => b
  | .varint, b =>
    match getBits4 b with
    | .error _ => b
    | .ok (b1, _) =>
      match getBits4 b1 with
      | .error _ => b1
      | .ok (b2, n) => varLoopLeft (8 * b.output.length) b2 n

/-- spdy4_codec_impl.py 656-657. -/
def fieldLeft (p : Packing) (b : BitBucket) : Field → BitBucket
  | .index | .indexStart => p.ints.left b
  | .key | .val => strLeft p.huff b

/-- spdy4_codec_impl.py 653-661. -/
def fieldsLeft (p : Packing) (fields : List Field) : List Field → BitBucket → Op → BitBucket
  | [], b, _ => b
  | f :: fs, b, op =>
    if f ∈ fields then
      match unpackField p b op f with
      | .ok (b, op) => fieldsLeft p fields fs b op
      | .error _ => fieldLeft p b f
    else fieldsLeft p fields fs b op

/-- spdy4_codec_impl.py 651-664. -/
def opsLeft (p : Packing) (opcode : Opcode) : Nat → BitBucket → BitBucket
  | 0, b => b
  | n + 1, b =>
    match readFields p opcode.fields packingOrder b { opcode := opcode } with
    | .ok (b, _) => opsLeft p opcode n b
    | .error _ => fieldsLeft p opcode.fields packingOrder b { opcode := opcode }

/-- spdy4_codec_impl.py 643-664; an opcode that is not in the dictionary raises after the byte has been read. -/
def blockLeft (p : Packing) (b : BitBucket) : BitBucket :=
  match getBits8 b with
  | .error _ => b
  | .ok (b, x) =>
    match opcodeOf (x >>> 4) with
    | none => b
    | some opcode => opsLeft p opcode ((x &&& 0x0f) + 1) b

/-- spdy4_codec_impl.py 642-671. -/
def blocksLeft (p : Packing) : Nat → BitBucket → BitBucket
  | 0, b => b
  | fuel + 1, b =>
    match readBlock p b [] with
    | (_, none) => blockLeft p b
    | (_, some b) => blocksLeft p fuel b

/-- The loop spdy4_codec_impl.py 631-671; an exception within a frame only ends this frame. -/
def readFrames (p : Packing) : Nat → BitBucket → List Op → Py (Nat × List Op)
  | 0, _, _ => .error .outOfFuel
  | fuel + 1, b, ops => do
    let (b, len) ← getBits16 b
    let (b, _) ← getBits8 b
    let (b, flags) ← getBits8 b
    let (b, _) ← getBits32 b
    let (b, groupId) ← getBits8 b
    let (ops, rest) ← readBlocks p (8 * b.output.length) b (len * 8 : Nat) ops
    if flags = 0 then
      match rest with
      | some b => readFrames p fuel b ops
      | none => readFrames p fuel (blocksLeft p (8 * b.output.length) b) ops
    else pure (groupId, ops)

/-- spdy4_codec_impl.py 620-673, DeserializeInstructions. -/
def deserialize (p : Packing) (frame : BitBucket) : Py (Nat × List Op) := do
  let b ← storeBits BitBucket.empty frame.output (numBits frame).toNat
  readFrames p (b.output.length + 1) b []

/-- spdy4_codec_impl.py 885-893, RealOpsToOps. -/
def realOpsToOps (p : Packing) (realops : Str) : Py (Nat × List Op) := do
  let b ← storeBits BitBucket.empty realops (realops.length * 8)
  deserialize p b

end Verif.Delta2
