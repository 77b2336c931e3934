import Verif.Cpp.Utils
import Verif.Cpp.Huffman
/-
Model of the output of a Huffman coder, compressor/delta/huffman.h, and of huffman_test.cc.
-/
namespace Verif.Cpp
open Verif

/-- huffman.h 538-541: the lines for the symbols from `i` on. -/
def printFrom : List CodeEntry → Nat → Py Str
  | [], _ => .ok []
  | e :: codes, i => do
    let s ← formatVec e.vec e.len 0
    let r ← readable i
    let rest ← printFrom codes (i + 1)
    pure (s ++ b!" " ++ r ++ b!"\n" ++ rest)

/-- huffman.h 537-544, `operator<<`. -/
def printCoder (h : Coder) : Py Str := printFrom h.codes 0

/-- huffman_test.cc 28-45, TestEncodeDecode (with Test, 17-26); `fuel` limits the number of symbols decoded. -/
def testEncodeDecode (h : Coder) (input : List Nat) (useEof useLength : Bool) (lengthDelta : Int) (fuel : Nat) : Py Unit := do
  let b ← encodeC h BB.empty input useEof
  let numBits : Int := if useLength then (b.numBits : Int) + lengthDelta else 0
  let (_, decoded) ← decodeC h b useEof numBits fuel
  if input ≠ decoded then .error .assertion else .ok ()

/-- huffman_test.cc 61-63: the tests of one string. -/
def testText (h : Coder) (test : List Nat) (fuel : Nat) : Py Unit := do
  testEncodeDecode h test true false 0 fuel
  testEncodeDecode h test false true 0 fuel
  testEncodeDecode h test true true 8 fuel

end Verif.Cpp
