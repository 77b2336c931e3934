import Verif.Bits.Model
/-
Model of compressor/delta/bit_bucket.h (class BitBucket; the copy in delta_bohe is the same).

The C++ code has no exceptions.  In the model `.index` stands for an access outside a vector
(undefined behaviour: `back()`, `pop_back()`, `operator[]` or an iterator past the end) and
`.assertion` for a call of `abort()`.

Simplifications: size_t is unbounded; `byte_idx`, a uint32_t, is unbounded too (it wraps at 2^35
stored bits).  Values of type uint8_t, uint16_t and uint32_t are natural numbers, what is assigned to
them is reduced modulo 2^8, 2^16, 2^32.  `char` is a byte.  The host is little-endian.
-/
namespace Verif.Cpp
open Verif Bits

/-- bit_bucket.h 28-34, the state. -/
structure BB where
  bsa : List Nat
  boff : Nat
  idxByte : Nat
  idxBoff : Nat
  numBits : Nat
  deriving DecidableEq, Repr

/-- bit_bucket.h 40-46, Clear. -/
def BB.empty : BB := { bsa := [], boff := 0, idxByte := 0, idxBoff := 0, numBits := 0 }

/-- bit_bucket.h 60-69, StoreByteAligned. -/
def storeByteAligned (b : BB) (bytes : List Nat) : BB :=
  { b with bsa := b.bsa ++ bytes, boff := 0, numBits := (b.bsa ++ bytes).length * 8 }

/-- bit_bucket.h 71-75, StoreByteAlignedUint8. -/
def storeByteAlignedUint8 (b : BB) (v : Nat) : BB :=
  { b with bsa := b.bsa ++ [v], boff := 0, numBits := (b.bsa ++ [v]).length * 8 }

/-- bit_bucket.h 77-82, StoreByteAlignedUint16, on a little-endian host. -/
def storeByteAlignedUint16 (b : BB) (v : Nat) : BB :=
  let b := storeByteAligned b [v % 256, v / 256 % 256]
  { b with boff := 0, numBits := b.bsa.length * 8 }

/-- bit_bucket.h 84-89, StoreByteAlignedUint32, on a little-endian host. -/
def storeByteAlignedUint32 (b : BB) (v : Nat) : BB :=
  let b := storeByteAligned b [v % 256, v / 256 % 256, v / 65536 % 256, v / 16777216 % 256]
  { b with boff := 0, numBits := b.bsa.length * 8 }

/-- bit_bucket.h 96-99, Seek. -/
def seek (b : BB) (bitLoc : Nat) : BB := { b with idxBoff := bitLoc % 8, idxByte := bitLoc / 8 }

/-- bit_bucket.h 252-254, BitsConsumed. -/
def bitsConsumed (b : BB) : Nat := b.idxByte * 8 + b.idxBoff

/-- bit_bucket.h 101-107, SeekDelta and ConsumeBits. -/
def consumeBits (b : BB) (delta : Nat) : BB := seek b (bitsConsumed b + delta)

/-- bit_bucket.h 262-271, GetBit. -/
def getBit (b : BB) : BB × Bool :=
  match b.bsa[b.idxByte]? with
  | none => (b, false)
  | some x =>
    let bit := x &&& (0x80 >>> b.idxBoff) != 0
    let idxBoff := b.idxBoff + 1
    if idxBoff ≥ 8 then ({ b with idxByte := b.idxByte + 1, idxBoff := idxBoff - 8 }, bit)
    else ({ b with idxBoff := idxBoff }, bit)

/-- The loop bit_bucket.h 115-119. -/
def shiftLoop (b : BB) : Nat → Nat → Nat
  | 0, tmp => tmp
  | n + 1, tmp => shiftLoop (getBit b).1 n (((tmp <<< 1) % 2 ^ 32) ||| (getBit b).2.toNat)

/-- bit_bucket.h 110-123, ShiftBitsIntoWord: the new word (the read position is restored).  A shift by
32 is undefined behaviour in C++; here it gives 0 whatever the word was. -/
def shiftBitsIntoWord (b : BB) (word n : Nat) : Nat :=
  ((word <<< n) % 2 ^ 32) ||| shiftLoop b n 0

/-- bit_bucket.h 125-133, StoreBit. -/
def storeBit (b : BB) (bit : Bool) : Py BB := do
  let numBits := b.numBits + 1
  let byteIdx := (numBits + 7) / 8
  let bsa := if byteIdx > b.bsa.length then b.bsa ++ [0] else b.bsa
  let bsa ← onLast (fun x => x ||| ((bit.toNat <<< (7 - b.boff)) % 256)) bsa
  pure { b with bsa := bsa, boff := (b.boff + 1) % 8, numBits := numBits }

/-- bit_bucket.h 135-144, StoreBits8. -/
def storeBits8 (b : BB) (v : Nat) : Py BB :=
  if b.boff = 0 then pure { b with bsa := b.bsa ++ [v] }
  else do
    let bsa ← storeLoop b.boff [v] b.bsa
    pure { b with bsa := bsa, numBits := b.numBits + 8 }

/-- bit_bucket.h 146-160, StoreBits16. -/
def storeBits16 (b : BB) (v : Nat) : Py BB :=
  if b.boff = 0 then pure { b with bsa := b.bsa ++ [(v >>> 8) % 256, (v &&& 255) % 256] }
  else do
    let bsa ← storeLoop b.boff [(v >>> 8) % 256, v &&& 255] b.bsa
    pure { b with bsa := bsa, numBits := b.numBits + 16 }

/-- bit_bucket.h 162-184, StoreBits32. -/
def storeBits32 (b : BB) (v : Nat) : Py BB :=
  if b.boff = 0 then
    pure { b with bsa := b.bsa ++ [(v >>> 24) % 256, 255 &&& (v >>> 16), 255 &&& (v >>> 8), 255 &&& v] }
  else do
    let bsa ← storeLoop b.boff [(v >>> 24) % 256, 255 &&& (v >>> 16), 255 &&& (v >>> 8), 255 &&& v] b.bsa
    pure { b with bsa := bsa, numBits := b.numBits + 32 }

/-- `bsa.pop_back()`. -/
def popBack (l : List Nat) : Py (List Nat) := if l = [] then .error .index else .ok l.dropLast

/-- bit_bucket.h 191-229, StoreBits.  The loop 211-215 is `Bits.storeLoop`: `c << bits_left_in_byte`
is cut to a byte by push_back. -/
def storeBits (b : BB) (bytes : List Nat) (n : Nat) : Py BB :=
  if n = 0 then pure b
  else do
    let b' ←
      if b.boff = 0 then do
        let bsa := b.bsa ++ bytes
        let boff := n % 8
        let bsa ← if boff ≠ 0 then onLast (clear (255 >>> boff)) bsa else pure bsa
        pure { b with bsa := bsa, boff := boff, numBits := b.numBits + n }
      else do
        let leftover := if n % 8 ≠ 0 then n % 8 else 8
        let bsa ← storeLoop b.boff bytes b.bsa
        let bsa ← if b.boff + leftover ≤ 8 then popBack bsa else pure bsa
        let boff := (b.boff + leftover) % 8
        let bsa ← if boff ≠ 0 then onLast (clear (255 >>> boff)) bsa else pure bsa
        pure { b with bsa := bsa, boff := boff, numBits := b.numBits + n }
    if b'.boff ≠ (b.boff + n) % 8 then .error .assertion else pure b'

/-- bit_bucket.h 231-247, StoreBytes. -/
def storeBytes (b : BB) (bytes : List Nat) : Py BB := do
  let bsa ← if b.boff = 0 then pure (b.bsa ++ bytes) else storeLoop b.boff bytes b.bsa
  pure { b with bsa := bsa, numBits := b.numBits + bytes.length * 8 }

/-- bit_bucket.h 255-257, AllConsumed. -/
def allConsumed (b : BB) : Bool := bitsConsumed b ≥ b.numBits

/-- `bsa[i]`. -/
def byteAt (bsa : List Nat) (i : Nat) : Py Nat :=
  match bsa[i]? with
  | some x => .ok x
  | none => .error .index

/-- The loop bit_bucket.h 293-301: index, result and the bits left (fewer than 8). -/
def getWhole (bsa : List Nat) (boff : Nat) : Nat → Nat → List Nat → Py (Nat × List Nat)
  | 0, idx, ret => .ok (idx, ret)
  | n + 1, idx, ret => do
    let a ← byteAt bsa idx
    let c ← byteAt bsa (idx + 1)
    getWhole bsa boff n (idx + 1) (ret ++ [((a <<< boff) ||| (c >>> (8 - boff))) % 256])

/-- The loop bit_bucket.h 306-330, at most `fuel` rounds: index, offset and the assembled byte. -/
def getPart (bsa : List Nat) (idxLeftover : Nat) : Nat → Nat → Nat → Nat → Nat → Nat → Py (Nat × Nat × Nat)
  | 0, _, _, _, _, _ => .error .outOfFuel
  | fuel + 1, idx, boff, bitsLeft, curByte, curBoff => do
    let k := min (min (8 - curBoff) idxLeftover) bitsLeft
    let x ← byteAt bsa idx
    let curByte := curByte ||| (clear (255 >>> k) (x <<< boff) >>> curBoff)
    let bitsLeft := bitsLeft - k
    let boff := boff + k
    let idx' := if boff ≥ 8 then idx + 1 else idx
    let boff' := if boff ≥ 8 then boff - 8 else boff
    let curBoff := curBoff + k
    if curBoff ≥ 8 then .error .assertion
    else if bitsLeft = 0 then .ok (idx', boff', curByte % 256)
    else getPart bsa idxLeftover fuel idx' boff' bitsLeft curByte curBoff

/-- bit_bucket.h 273-340, GetBits: the bits are appended to `ret`. -/
def getBits (b : BB) (ret : List Nat) (n : Nat) : Py (BB × List Nat) := do
  let outputBytes := (n + 7) / 8
  if n > b.numBits then .error .assertion
  else do
    let (b', ret) ←
      if b.idxBoff = 0 then do
        if b.idxByte + outputBytes > b.bsa.length then .error .index
        else do
          let ret := ret ++ (b.bsa.drop b.idxByte).take outputBytes
          let ret ← if n % 8 ≠ 0 then onLast (clear (255 >>> (n % 8))) ret else pure ret
          pure ({ b with idxByte := b.idxByte + n / 8, idxBoff := n % 8 }, ret)
      else do
        let (idx, ret) ← getWhole b.bsa b.idxBoff (n / 8) b.idxByte ret
        if n % 8 ≠ 0 then do
          let (idx, boff, c) ← getPart b.bsa (8 - b.idxBoff) 8 idx b.idxBoff (n % 8) 0 0
          pure ({ b with idxByte := idx, idxBoff := boff }, ret ++ [c])
        else pure ({ b with idxByte := idx }, ret)
    if b'.idxBoff ≠ (b.idxBoff + n) % 8 then .error .assertion else pure (b', ret)

end Verif.Cpp
