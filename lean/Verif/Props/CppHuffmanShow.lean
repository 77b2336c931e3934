import Verif.Props.CppHuffman
/-
Concrete cases of C90 to C93.
-/
namespace Verif.Props
open Verif Verif.Huff Verif.Huff.Spec Verif.Cpp

/-- The coder of the requests: the code of `a` and of the end of string, a text and its bytes, read again, and the
last code word. -/
def demo : Py (List (List Nat)) := do
  let h ← init whole52 Coder.fresh requestTableC
  let a ← codeAt h 97
  let e ← codeAt h 256
  let b ← encodeC h BB.empty [97, 98, 0] true
  let (b', out) ← decodeC h b true 0 4
  let (sym, n) ← decodeFromWord h (2 ^ 32 - 1)
  pure [a.vec, [a.len, a.val], e.vec, [e.len, e.val], b.bsa, out, [bitsConsumed b', sym, n]]

example : demo.toOption =
    some [[72], [5, 1207959552], [204], [6, 3422552064], [77, 159, 255, 235, 51], [97, 98, 0],
      [66, 169, 23]] := by decide +kernel

/-- The coder of a flat table: two symbols have 9 bits, the others 8. -/
def flatCoderCpp : Coder where
  codes := { vec := [255, 0], len := 9, val := 255 * 2 ^ 24 } :: { vec := [255, 128], len := 9, val := 511 * 2 ^ 23 } ::
    (List.range 255).map fun i => { vec := [i], len := 8, val := i * 2 ^ 24 }
  branches := [{ base := 0, mask := 255 * 2 ^ 24, shift := 24 }, { base := 256, mask := 2 ^ 23, shift := 23 }]
  entries := ((List.range 255).map fun i => DecodeEntry.make (i + 2) 0) ++
    [DecodeEntry.make 0 1, DecodeEntry.make 0 1, DecodeEntry.make 1 1]

example : (init whole52 Coder.fresh ((List.range 257).map fun i => (i, 1))).toOption = some flatCoderCpp := by decide +kernel

/-- The object of the flat table, once more for one in which NUL is more frequent: in the second table NUL is 0, but the word that begins
so is decoded as another symbol. -/
def demoAgain : Py (List (List Nat)) := do
  let h ← init whole52 flatCoderCpp ((List.range 257).map fun i => (i, if i = 0 then 2 else 1))
  let a ← codeAt h 0
  let (sym, n) ← decodeFromWord h 0
  pure [a.vec, [a.len, a.val], [sym, n]]

example : demoAgain.toOption = some [[0], [8, 0], [2, 9]] := by decide +kernel

end Verif.Props
