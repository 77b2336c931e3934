import Verif.Cpp.BitBucket
import Verif.Stats.WordFreak
/-
Model of compressor/delta/utils.h and utils.cc, of the output functions in bit_bucket.h and huffman.h, and of
bit_bucket_test.cc (the copies in delta_bohe are the same).

A text is a list of characters.  `.index` stands for undefined behaviour (an access outside a vector, a shift by a negative
distance), `.assertion` for `abort()`.
-/
namespace Verif.Cpp
open Verif
open Verif.Stats (dec hexDigit)

/-- `stream << bool`. -/
def bitChar (b : Bool) : Nat := if b then 49 else 48

/-- The bar in front of a byte: `if ((i + offset) % 8 == 0)`. -/
def bar (i : Nat) (offset : Int) : Str := if ((i : Int) + offset).tmod 8 = 0 then [124] else []

/-- utils.h 16-26, FormatAsBits on a vector: from bit `i` on, `n` bits to go. -/
def formatVecFrom (v : List Nat) (offset : Int) : Nat → Nat → Py Str
  | _, 0 => .ok []
  | i, n + 1 =>
    match v[i / 8]? with
    | none => .error .index
    | some c => do
      let rest ← formatVecFrom v offset (i + 1) n
      pure (bar i offset ++ [bitChar (c &&& (0x80 >>> (i % 8)) != 0)] ++ rest)

/-- utils.h 15-26, FormatAsBits on a vector.  `char` may have a sign, but only the lowest eight bits are looked at. -/
def formatVec (v : List Nat) (numBits : Nat) (offset : Int) : Py Str := formatVecFrom v offset 0 numBits

/-- utils.cc 12-43, FormatAsBits on an integer of `width` bits (32, 16, 8): from bit `i` on. -/
def formatWordFrom (width v : Nat) (offset : Int) : Nat → Nat → Py Str
  | _, 0 => .ok []
  | i, n + 1 =>
    if i < width then do
      let rest ← formatWordFrom width v offset (i + 1) n
      pure (bar i offset ++ [bitChar ((v >>> (width - 1 - i)) &&& 1 > 0)] ++ rest)
    else .error .index

/-- utils.cc 12-43, FormatAsBits on an integer. -/
def formatWord (width v numBits : Nat) (offset : Int) : Py Str := formatWordFrom width v offset 0 numBits

/-- `stream << hex << c` for `c < 256`. -/
def hexNum (c : Nat) : Str := if c < 16 then [hexDigit c] else [hexDigit (c / 16), hexDigit (c % 16)]

/-- utils.cc 45-79, OutputCharToOstream, and 81-85, ReadableUShort (`isgraph` of the C locale). -/
def readable (c : Nat) : Py Str :=
  if c > 256 + 1 then .error .assertion
  else if c ≥ 256 then .ok (dec c)
  else
    let body :=
      if c < 128 ∧ ((33 ≤ c ∧ c ≤ 126) ∨ c = 32) then [c]
      else if c = 9 then [92, 116]
      else if c = 10 then [92, 110]
      else if c = 13 then [92, 114]
      else if c = 0 then [92, 48]
      else if c ≥ 16 then [92, 120] ++ hexNum c
      else [92, 120, 48] ++ hexNum c
    .ok ([32, 39] ++ body ++ [39])

/-- bit_bucket.h 362-366, `operator<<`, and 342-346, AsString. -/
def asString (b : BB) : Py Str := do
  let s ← formatVec b.bsa b.numBits 0
  pure (s ++ b!" [" ++ dec b.numBits ++ b!"," ++ dec b.boff ++ b!"]")

/-- bit_bucket.h 351-358: characters with bars, from position `i` on. -/
def marks (c : Nat) : Nat → Nat → Str
  | _, 0 => []
  | i, n + 1 => (if i % 8 = 0 then [124] else []) ++ [c] ++ marks c (i + 1) n

/-- bit_bucket.h 347-360, DebugStr. -/
def debugStr (b : BB) (offset range : Nat) : Str :=
  let consumed := b.idxByte * 8 + b.idxBoff + offset
  marks 45 0 consumed ++ marks 94 consumed range

/-! ### bit_bucket_test.cc -/

/-- bit_bucket_test.cc 7-11. -/
structure Testcase where
  numBytes : Nat
  v : List Nat
  numBits : Nat
  expected : Str
  deriving DecidableEq, Repr

/-- bit_bucket_test.cc 21-32, TestStoreBits (and 13-18: the test case is printed first). -/
def testStoreBits (b : BB) (test : Testcase) : Py BB := do
  let _ ← formatVec test.v test.numBits 0
  let b ← storeBits b test.v test.numBits
  let s ← asString b
  if test.expected ≠ s then .error .assertion else pure b

/-- bit_bucket_test.cc 53-58: single bits, from bit `j` on. -/
def readBits (b : BB) : Nat → Nat → BB × Str
  | _, 0 => (b, [])
  | j, n + 1 =>
    let r := readBits (getBit b).1 (j + 1) n
    (r.1, (if j % 8 = 0 then [124] else []) ++ [bitChar (getBit b).2] ++ r.2)

/-- bit_bucket_test.cc 50-73: the loop from bit `i` on, for `n` rounds; how often FAILED is printed. -/
def offsets (numBits : Nat) (expected : Str) : Nat → Nat → BB → Py (BB × Nat)
  | _, 0, b => .ok (b, 0)
  | i, n + 1, b => do
    let (b, s) := readBits (seek b 0) 0 i
    let (b, storage) ← getBits b [] (numBits - i)
    let _ ← formatVec storage (numBits - i) i
    let t ← formatVec storage (numBits - i) i
    let text := s ++ t ++ b!" [" ++ dec numBits ++ b!"," ++ dec (numBits % 8) ++ b!"]"
    let (b, failed) ← offsets numBits expected (i + 1) n b
    pure (b, (if text ≠ expected then 1 else 0) + failed)

/-- bit_bucket_test.cc 34-74, TestGetBits. -/
def testGetBits (b : BB) (test : Testcase) : Py (BB × Nat) := do
  let b := seek b 0
  let numBits := b.numBits
  let (b, storage) ← getBits b [] numBits
  let s ← formatVec storage numBits 0
  if s ++ b!" [" ++ dec numBits ++ b!"," ++ dec (numBits % 8) ++ b!"]" ≠ test.expected then .error .assertion
  else offsets numBits test.expected 1 (min 8 numBits - 1) b

/-- bit_bucket_test.cc 76-83, TestBytesRequired. -/
def testBytesRequired (b : BB) (test : Testcase) : Nat := if b.bsa.length ≠ test.numBytes then 1 else 0

/-- bit_bucket_test.cc 88-94: the tests one after the other. -/
def testLoop (b : BB) : List Testcase → Py Nat
  | [] => .ok 0
  | test :: tests => do
    let b ← testStoreBits b test
    let (b, f1) ← testGetBits b test
    let f2 := testBytesRequired b test
    let f3 ← testLoop b tests
    pure (f1 + f2 + f3)

/-- bit_bucket_test.cc 85-95, RunTests: how often FAILED is printed without a call of `abort()`. -/
def runTests (tests : List Testcase) : Py Nat := testLoop BB.empty tests

end Verif.Cpp
