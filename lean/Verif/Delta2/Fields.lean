import Verif.Huff.Model
/-
Model of the field packing functions of compressor/delta2/spdy4_codec_impl.py, lines 107-269.

The parameters `bitlen` and `huff` are left out where they are not used.  Strings are lists of
bytes (`StrToList` and `ListToStr` are the identity).
-/
namespace Verif.Delta2
open Verif Verif.Bits Verif.Huff

/-- spdy4_codec_impl.py 117-142, UnpackInt: the bytes are put to the right of a big-endian word. -/
def unpackInt (b : BitBucket) (bitlen : Nat) : Py (BitBucket × Nat) := do
  let (b, raw) ← getBits b bitlen
  if bitlen ≤ 8 then do
    let x ← at? raw 0
    pure (b, x >>> (8 - bitlen))
  else if bitlen ≤ 16 then do
    let x ← at? raw 0
    let y ← at? raw 1
    pure (b, (x * 256 + y) >>> (16 - bitlen))
  else if bitlen ≤ 24 then do
    let x ← at? raw 0
    let y ← at? raw 1
    let z ← at? raw 2
    pure (b, ((x * 256 + y) * 256 + z) >>> (24 - bitlen))
  else do
    let x ← at? raw 0
    let y ← at? raw 1
    let z ← at? raw 2
    let w ← at? raw 3
    pure (b, (((x * 256 + y) * 256 + z) * 256 + w) >>> (32 - bitlen))

/-- spdy4_codec_impl.py 209-229, PackInt, for natural `bitlen` and `val`. -/
def packInt (b : BitBucket) (bitlen val : Nat) : Py BitBucket :=
  if bitlen ≤ 0 ∨ bitlen > 32 ∨ val ≠ clear (1 <<< bitlen) val then .error .standard
  else if bitlen ≤ 8 then do
    let bytes ← packB (val <<< (8 - bitlen))
    storeBits b bytes bitlen
  else if bitlen ≤ 16 then do
    let bytes ← packH (val <<< (16 - bitlen))
    storeBits b bytes bitlen
  else if bitlen ≤ 24 then do
    let bytes ← packL (val <<< (24 - bitlen))
    storeBits b (bytes.drop 1) bitlen
  else do
    let bytes ← packL (val <<< (32 - bitlen))
    storeBits b bytes bitlen

/-- spdy4_codec_impl.py 203-204, PackInt8: `struct.pack` refuses negative numbers. -/
def packInt8 (b : BitBucket) (val : Int) : Py BitBucket :=
  if val < 0 then .error .struct else storeBits8 b val.toNat

/-- spdy4_codec_impl.py 206-207, PackInt16. -/
def packInt16 (b : BitBucket) (val : Int) : Py BitBucket :=
  if val < 0 then .error .struct else storeBits16 b val.toNat

/-- spdy4_codec_impl.py 107-108, UnpackInt8. -/
def unpackInt8 (b : BitBucket) : Py (BitBucket × Int) := do
  let (b, v) ← getBits8 b
  pure (b, (v : Int))

/-- spdy4_codec_impl.py 110-111, UnpackInt16. -/
def unpackInt16 (b : BitBucket) : Py (BitBucket × Int) := do
  let (b, v) ← getBits16 b
  pure (b, (v : Int))

/-- The loop spdy4_codec_impl.py 240-243; `val` is enough fuel. -/
def packVarLoop : Nat → BitBucket → Nat → Py BitBucket
  | fuel, b, val =>
    if val > 7 then
      match fuel with
      | 0 => .error .outOfFuel
      | fuel + 1 => do
        let b ← storeBits4 b (8 ||| (val &&& 7))
        packVarLoop fuel b (val >>> 3)
    else storeBits4 b (val &&& 7)

/-- spdy4_codec_impl.py 231-243, PackVarInt. -/
def packVarInt (b : BitBucket) (val : Int) : Py BitBucket :=
  if val < 0 then .error .assertion
  else if val < 15 then storeBits4 b (val.toNat &&& 15)
  else do
    let b ← storeBits4 b 15
    packVarLoop (val.toNat - 15) b (val.toNat - 15)

/-- The loop spdy4_codec_impl.py 154-157; the number of unread bits is enough fuel. -/
def unpackVarLoop : Nat → BitBucket → Nat → Nat → Nat → Py (BitBucket × Int)
  | fuel, b, n, shift, val =>
    if n &&& 8 ≠ 0 then
      match fuel with
      | 0 => .error .outOfFuel
      | fuel + 1 => do
        let (b, n) ← getBits4 b
        unpackVarLoop fuel b n (shift + 3) (val + ((n &&& 7) <<< (shift + 3)))
    else .ok (b, (val : Int))

/-- spdy4_codec_impl.py 144-158, UnpackVarInt. -/
def unpackVarInt (b : BitBucket) : Py (BitBucket × Int) := do
  let fuel := 8 * b.output.length
  let (b, val) ← getBits4 b
  if val < 15 then pure (b, (val : Int))
  else do
    let (b, n) ← getBits4 b
    unpackVarLoop fuel b n 0 (val + ((n &&& 7) <<< 0))

/-- The loop spdy4_codec_impl.py 192-196; the number of stored bytes plus one is enough fuel. -/
def unpackAscii : Nat → BitBucket → List Nat → Py (BitBucket × List Nat)
  | 0, _, _ => .error .outOfFuel
  | fuel + 1, b, out => do
    let (b, c) ← getBits8 b
    if c = 0 then pure (b, out) else unpackAscii fuel b (out ++ [c])

/-- spdy4_codec_impl.py 160-200, UnpackStr. -/
def unpackStr (huff : Option Huffman) (pad useHuffman : Bool) (b : BitBucket) : Py (BitBucket × Str) := do
  let (b, s) ← match (if useHuffman then huff else none) with
    | some h => decodeFromBB h b true 0
    | none => unpackAscii (b.output.length + 1) b []
  pure (if pad then advanceReadPtr b else b, s)

/-- spdy4_codec_impl.py 245-269, PackStr: without Huffman coding `len_in_bits` has no value. -/
def packStr (huff : Option Huffman) (pad useHuffman : Bool) (b : BitBucket) (val : Str) : Py BitBucket :=
  match (if useHuffman then huff else none) with
  | some h => do
    let (bytes, n) ← encode h val true
    let b ← storeBits b bytes n
    pure (if pad then padToByteBoundary b else b)
  | none => .error .name

end Verif.Delta2
