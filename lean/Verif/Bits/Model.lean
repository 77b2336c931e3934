import Verif.Py
/-
Model of compressor/delta2/bit_bucket.py (class BitBucket) and of the additional StoreBits22 of
compressor/bohe/bit_bucket.py.  The copies in delta, delta_bohe, delta2_bohe and bohe have the same
StoreBits, StoreBit, StoreBits8/16/32, GetBits and GetBits8/16/32.

Simplifications: stored values and byte lists are natural numbers; `out_byte` is left out, it is
only ever incremented and never read; debug output is left out.
-/
namespace Verif.Bits
open Verif

/-- bit_bucket.py 18-26, the state. -/
structure BitBucket where
  output : List Nat
  outBoff : Nat
  idxByte : Nat
  idxBoff : Nat
  deriving DecidableEq, Repr

/-- bit_bucket.py 18-26, Clear. -/
def BitBucket.empty : BitBucket := { output := [], outBoff := 0, idxByte := 0, idxBoff := 0 }

/-- `output[-1] = f(output[-1])`. -/
def onLast (f : Nat → Nat) (out : List Nat) : Py (List Nat) :=
  match out.getLast? with
  | none => .error .index
  | some x => .ok (out.dropLast ++ [f x])

/-- `x & ~m`, for natural numbers: the bits of `x` that are not in `m`. -/
def clear (m x : Nat) : Nat := x ^^^ (x &&& m)

/-- bit_bucket.py 28-34, PadToByteBoundary. -/
def padToByteBoundary (b : BitBucket) : BitBucket :=
  if b.outBoff % 8 ≠ 0 then { b with outBoff := 0 } else b

/-- bit_bucket.py 36-45, AdvanceReadPtrToByteBoundary. -/
def advanceReadPtr (b : BitBucket) : BitBucket :=
  let bitsToAdvance := (8 - b.idxBoff) % 8
  if bitsToAdvance ≠ 0 then
    { b with idxBoff := (b.idxBoff + bitsToAdvance) % 8, idxByte := b.idxByte + 1 }
  else b

/-- The loop bit_bucket.py 112-115. -/
def storeLoop (boff : Nat) : List Nat → List Nat → Py (List Nat)
  | [], out => .ok out
  | c :: cs, out => do
    let out ← onLast (fun x => x ||| (c >>> boff)) out
    storeLoop boff cs (out ++ [(c <<< (8 - boff)) &&& 255])

/-- bit_bucket.py 95-98. -/
def leftoverBits (n : Nat) : Nat := if n % 8 ≠ 0 then n % 8 else 8

/-- bit_bucket.py 84-125, StoreBits. -/
def storeBits (b : BitBucket) (inpBytes : List Nat) (inpBits : Nat) : Py BitBucket :=
  match inpBytes.getLast? with
  | none => .ok b
  | some c => do
    let leftover := leftoverBits inpBits
    let b' ←
      if b.outBoff = 0 then do
        let out ← onLast (clear (255 >>> leftover)) (b.output ++ inpBytes)
        pure { b with output := out, outBoff := leftover % 8 }
      else do
        let out ← storeLoop b.outBoff inpBytes b.output
        let out ← if b.outBoff + leftover ≤ 8 then onLast (fun x => x ||| (c >>> b.outBoff)) out.dropLast
          else pure out
        let outBoff := (b.outBoff + leftover) % 8
        let out ← if outBoff ≠ 0 then onLast (clear (255 >>> outBoff)) out else pure out
        pure { b with output := out, outBoff := outBoff }
    if b'.outBoff ≠ (b.outBoff + inpBits) % 8 then .error .standard else pure b'

/-- bit_bucket.py 47-55, StoreBit. -/
def storeBit (b : BitBucket) (bit : Bool) : Py BitBucket :=
  storeBits b [(if bit then 1 else 0) <<< 7] 1

/-- bit_bucket.py 57-61, StoreBits4. -/
def storeBits4 (b : BitBucket) (v : Nat) : Py BitBucket := storeBits b [(v &&& 0xf) <<< 4] 4

/-- bit_bucket.py 63-68, StoreBits8. -/
def storeBits8 (b : BitBucket) (v : Nat) : Py BitBucket := do
  let bytes ← packB v
  storeBits b bytes 8

/-- bit_bucket.py 70-75, StoreBits16. -/
def storeBits16 (b : BitBucket) (v : Nat) : Py BitBucket := do
  let bytes ← packH v
  storeBits b bytes 16

/-- bit_bucket.py 77-82, StoreBits32. -/
def storeBits32 (b : BitBucket) (v : Nat) : Py BitBucket := do
  let bytes ← packL v
  storeBits b bytes 32

/-- bohe/bit_bucket.py 62-67, StoreBits22. -/
def storeBits22 (b : BitBucket) (v : Nat) : Py BitBucket := do
  let bytes ← packL v
  storeBits b bytes 22

/-- bit_bucket.py 135-145, NumBits. -/
def numBits (b : BitBucket) : Int :=
  if b.outBoff % 8 ≠ 0 then 8 * (b.output.length : Int) - 8 + b.outBoff else 8 * (b.output.length : Int)

/-- bit_bucket.py 147-152, BytesOfStorage. -/
def bytesOfStorage (b : BitBucket) : Int := (numBits b + 7) / 8

/-- bit_bucket.py 154-158, BitsRemaining. -/
def bitsRemaining (b : BitBucket) : Int := numBits b - (8 * b.idxByte + b.idxBoff) - 1

/-- bit_bucket.py 160-162, AllConsumed. -/
def allConsumed (b : BitBucket) : Bool := numBits b ≤ 8 * b.idxByte + b.idxBoff

/-- `l[i]`. -/
def at? (l : List Nat) (i : Nat) : Py Nat :=
  match l[i]? with
  | some x => .ok x
  | none => .error .index

/-- The loop bit_bucket.py 217-220; `n` is the number of iterations, `bits_left / 8`. -/
def getAligned (out : List Nat) : Nat → Nat → List Nat → Py (Nat × List Nat)
  | 0, idx, ret => .ok (idx, ret)
  | n + 1, idx, ret => do
    let x ← at? out idx
    getAligned out n (idx + 1) (ret ++ [x])

/-- Variables of the loop bit_bucket.py 231-258. -/
structure GetSt where
  idxByte : Nat
  idxBoff : Nat
  bitsLeft : Nat
  curByte : Nat
  curBoff : Nat
  ret : List Nat
  deriving DecidableEq, Repr

/-- One iteration of the loop, bit_bucket.py 232-258. -/
def getIter (out : List Nat) (s : GetSt) : Py GetSt := do
  if s.bitsLeft ≥ 8 ∧ out.length > s.idxByte then
    let a ← at? out s.idxByte
    let b ← at? out (s.idxByte + 1)
    let curByte := (255 &&& (a <<< s.idxBoff)) ||| (b >>> (8 - s.idxBoff))
    pure { s with idxByte := s.idxByte + 1, ret := s.ret ++ [curByte], curByte := 0, bitsLeft := s.bitsLeft - 8 }
  else
    let k := min (min (8 - s.curBoff) (8 - s.idxBoff)) s.bitsLeft
    let c ← at? out s.idxByte
    let c := (c <<< s.idxBoff) &&& 255
    let curByte := s.curByte ||| (clear (255 >>> k) c >>> s.curBoff)
    let s := { s with bitsLeft := s.bitsLeft - k, curBoff := s.curBoff + k, idxBoff := s.idxBoff + k,
                      curByte := curByte }
    let s := if s.curBoff ≥ 8 then { s with ret := s.ret ++ [s.curByte], curByte := 0, curBoff := s.curBoff - 8 }
      else s
    if s.idxBoff ≥ 8 then
      if s.idxBoff - 8 ≥ 8 then .error .standard
      else pure { s with idxByte := s.idxByte + 1, idxBoff := s.idxBoff - 8 }
    else pure s

/-- The loop bit_bucket.py 231-258; the number of bits wanted is enough fuel. -/
def getLoop (out : List Nat) : Nat → GetSt → Py GetSt
  | 0, s => if s.bitsLeft > 0 then .error .outOfFuel else .ok s
  | fuel + 1, s => if s.bitsLeft > 0 then do
      let s ← getIter out s
      getLoop out fuel s
    else .ok s

/-- bit_bucket.py 202-266, GetBits. -/
def getBits (b : BitBucket) (n : Nat) : Py (BitBucket × List Nat) := do
  if (n : Int) > numBits b - (8 * b.idxByte + b.idxBoff) then .error .standard
  else
    let (b', ret) ←
      if b.idxBoff = 0 then do
        let (idx, ret) ← getAligned b.output (n / 8) b.idxByte []
        let left := n % 8
        if left ≠ 0 then do
          let x ← at? b.output idx
          pure ({ b with idxByte := idx, idxBoff := (b.idxBoff + left) % 8 }, ret ++ [clear (255 >>> left) x])
        else pure ({ b with idxByte := idx }, ret)
      else do
        let s ← getLoop b.output n
          { idxByte := b.idxByte, idxBoff := b.idxBoff, bitsLeft := n, curByte := 0, curBoff := 0, ret := [] }
        pure ({ b with idxByte := s.idxByte, idxBoff := s.idxBoff },
          if s.curBoff ≠ 0 then s.ret ++ [s.curByte] else s.ret)
    if (b.idxBoff + n) % 8 ≠ b'.idxBoff then .error .standard else pure (b', ret)

/-- bit_bucket.py 164-165, GetBit. -/
def getBit (b : BitBucket) : Py (BitBucket × Nat) := do
  let (b, l) ← getBits b 1
  let x ← at? l 0
  pure (b, x >>> 7)

/-- bit_bucket.py 167-173, GetBits4. -/
def getBits4 (b : BitBucket) : Py (BitBucket × Nat) := do
  let (b, l) ← getBits b 4
  let x ← at? l 0
  pure (b, x >>> 4)

/-- bit_bucket.py 175-182, GetBits8: `struct.unpack` of the bytes. -/
def getBits8 (b : BitBucket) : Py (BitBucket × Nat) := do
  let (b, l) ← getBits b 8
  let x ← at? l 0
  pure (b, x)

/-- bit_bucket.py 184-191, GetBits16. -/
def getBits16 (b : BitBucket) : Py (BitBucket × Nat) := do
  let (b, l) ← getBits b 16
  let x ← at? l 0
  let y ← at? l 1
  pure (b, x * 256 + y)

/-- bit_bucket.py 193-200, GetBits32. -/
def getBits32 (b : BitBucket) : Py (BitBucket × Nat) := do
  let (b, l) ← getBits b 32
  let x ← at? l 0
  let y ← at? l 1
  let z ← at? l 2
  let w ← at? l 3
  pure (b, ((x * 256 + y) * 256 + z) * 256 + w)

end Verif.Bits
