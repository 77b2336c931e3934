import Verif.Bits.Model
import Verif.Stats.WordFreak
/-
Model of how the Python code prints bits and strings, and of the helpers of its test of the bit bucket:
compressor/delta2/common_utils.py 15-50, compressor/delta2/bit_bucket.py 268-280, compressor/delta2/bit_bucket_test.py 10-46
(compressor/delta/bit_bucket_test.py 8-22).  The copies of common_utils.py and bit_bucket.py in the other directories have the
same functions.

Simplifications: what is printed is returned; the messages of a failing test are left out; `string.letters` is that of the C
locale.
-/
namespace Verif.Bits
open Verif
open Verif.Stats (dec hexDigit)

/-- The binary digits of a number; the first argument is at least as large as their number. -/
def binLoop : Nat → Nat → Str
  | 0, _ => []
  | fuel + 1, n => if n < 2 then [48 + n] else binLoop fuel (n / 2) ++ [48 + n % 2]

/-- `'{0:08b}'.format(c)`. -/
def bin08 (c : Nat) : Str :=
  let s := binLoop (c + 1) c
  List.replicate (8 - s.length) 48 ++ s

/-- common_utils.py 39-45: the loop over the whole bytes, of which there are `total_bits / 8`. -/
def wholeBytes (output : List Nat) : Nat → Nat → Py Str
  | 0, _ => .ok []
  | k + 1, idx => do
    let c ← at? output idx
    let rest ← wholeBytes output k (idx + 1)
    return b!"|" ++ bin08 c ++ rest

/-- common_utils.py 33-38: total_bits, which is negative if there are no bytes but bits. -/
def totalBits (output : List Nat) (bits : Nat) : Int :=
  if bits = 0 then output.length * 8
  else if bits % 8 ≠ 0 then ((output.length : Int) - 1) * 8 + (bits % 8 : Nat)
  else output.length * 8

/-- common_utils.py 28-50, FormatAsBits. -/
def formatAsBits (output : List Nat) (bits : Nat) : Py Str := do
  let k := (totalBits output bits / 8).toNat
  let whole ← wholeBytes output k 0
  let part ←
    if bits % 8 ≠ 0 then do
      let c ← at? output k
      pure (b!"|" ++ (bin08 c).take (bits % 8))
    else pure []
  return whole ++ part ++ b!" [" ++ dec bits ++ b!"]"

/-- bit_bucket.py 279-280, __repr__ (also `str`). -/
def repr (b : BitBucket) : Py Str := formatAsBits b.output b.outBoff

/-- bit_bucket.py 273-276: the marks for the bits that were read, as from the number `i`. -/
def dashes : Nat → Nat → Str
  | _, 0 => []
  | i, n + 1 => (if i % 8 = 0 then b!"|" else []) ++ b!"-" ++ dashes (i + 1) n

/-- bit_bucket.py 268-277, DebugFormat: the two lines printed. -/
def debugFormat (b : BitBucket) : Py (Str × Str) := do
  let s ← repr b
  return (s, dashes 0 (b.idxByte * 8 + b.idxBoff - 1) ++ b!"^")

/-- common_utils.py 19: the characters shown as they are. -/
def isPrintable (c : Nat) : Bool := decide (32 ≤ c ∧ c < 127) || c == 9

/-- common_utils.py 15-26, MakeReadableString, for a string of bytes. -/
def makeReadable (val : Str) : Str :=
  val.flatMap fun c =>
    if isPrintable c then b!"   " ++ [c, 32] else b!"0x" ++ [hexDigit (c / 16), hexDigit (c % 16), 32]

/-- bit_bucket_test.py 12-25: the loop of RunTestCase.  A wrong text raises `wrong`: NameError in delta2, since there is no
`self`, StandardError in delta. -/
def testLoop (wrong : PyErr) : BitBucket → List ((List Nat × Nat) × Str) → Py BitBucket
  | bb, [] => .ok bb
  | bb, ((bytes, n), expected) :: more => do
    let bb ← storeBits bb bytes n
    let s ← repr bb
    if s ≠ expected then throw wrong
    testLoop wrong bb more

/-- bit_bucket_test.py 10-25, RunTestCase. -/
def runTestCase (wrong : PyErr) (bb : BitBucket) (testcase : List ((List Nat × Nat) × Str)) : Py BitBucket := do
  let _ ← repr bb
  testLoop wrong bb testcase

/-- bit_bucket_test.py 31-34: bars in front of every eighth character. -/
def barLoop : Nat → Str → Str
  | _, [] => []
  | i, c :: cs => (if i % 8 = 0 then b!"|" else []) ++ [c] ++ barLoop (i + 1) cs

/-- bit_bucket_test.py 27-37, ReformatExpectedStr. -/
def reformatExpected (pre expected : Str) : Str :=
  let old := (expected.takeWhile (· ≠ 32)).filter (· ≠ 124)
  let new := pre ++ old
  barLoop 0 new ++ b!" [" ++ dec (new.length % 8) ++ b!"]"

/-- bit_bucket_test.py 39-46, StoreBitsFromString: the loop. -/
def storeChars : BitBucket → Str → Py BitBucket
  | bb, [] => .ok bb
  | bb, c :: cs => do
    let bb ← if c = 49 then storeBit bb true else if c = 48 then storeBit bb false else pure bb
    storeChars bb cs

/-- bit_bucket_test.py 39-46, StoreBitsFromString. -/
def storeFromString (bb : BitBucket) (s : Str) : Py BitBucket := storeChars bb (s.takeWhile (· ≠ 32))

end Verif.Bits
