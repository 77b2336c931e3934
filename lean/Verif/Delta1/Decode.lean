import Verif.Delta1.Huffman
import Verif.Bits.Show
/-
Model of compressor/delta/huffman.py 153-207 (Decode and FormatCodeTable) and of the loop of the test programs
compressor/delta/huffman_test.py 57-67 and compressor/delta2/huffman_test.py 122-135.  The copies of huffman.py in bohe,
delta_bohe and delta2_bohe have the same Decode; their FormatCodeTable tests for the same characters in other words.

Left out: `__repr__`, which always raises AttributeError, since `code_table` is a list and has no `iteritems`; the texts that
the test programs print.
-/
namespace Verif.Delta1
open Verif Verif.Bits Verif.Huff
open Verif.Stats (dec rjust)

/-- huffman.py 170-183: from the root to a leaf, `(chr_index, bit_index)` being the next bit; the symbol, the indices
afterwards and the number of bits read. -/
def textWalk (text : List Nat) : DTree → Nat → Nat → Py (Nat × Nat × Nat × Nat)
  | .empty, _, _ => .error .type
  | .leaf sym, chr, bit => .ok (sym, chr, bit, 0)
  | .node l r, chr, bit => do
    let c ← at? text chr
    let chr' := if bit + 1 ≥ 8 then chr + 1 else chr
    let bit' := if bit + 1 ≥ 8 then 0 else bit + 1
    (if (c >>> (7 - bit)) &&& 1 = 0 then textWalk text l chr' bit' else textWalk text r chr' bit').map
      fun x => (x.1, x.2.1, x.2.2.1, x.2.2.2 + 1)

/-- huffman.py 168-189: the loop of Decode.  A symbol is an int, so `ord` of it raises TypeError. -/
def textLoop (text : List Nat) (tree : DTree) (includesEof : Bool) (want : Int) :
    Nat → Nat → Nat → Nat → List Nat → Py (List Nat)
  | fuel, chr, bit, total, out =>
    if (total : Int) < want then
      match fuel with
      | 0 => .error .outOfFuel
      | fuel + 1 => do
        let (sym, chr, bit, n) ← textWalk text tree chr bit
        if includesEof then .error .type
        else textLoop text tree includesEof want fuel chr bit (total + n) (out ++ [sym])
    else .ok out

/-- huffman.py 153-189, Decode.  Every turn of the loop reads a bit, unless the root is a leaf. -/
def decode (h : Huffman) (text : List Nat) (includesEof : Bool) (bitsToDecode : Int) : Py (List Nat) :=
  if text = [] then .ok []
  else
    let want : Int := if bitsToDecode ≤ 0 then text.length * 8 else bitsToDecode
    textLoop text h.tree includesEof want (8 * text.length + 1) 0 0 0 []

/-- huffman.py 199-203: the symbol, if it can be printed, in five columns. -/
def readableCode (code : Nat) : Str :=
  if 32 ≤ code ∧ code < 127 then rjust 5 [39, code, 39] else rjust 5 []

/-- huffman.py 197-206: the lines of the table, as from the symbol `i`.  (The list is sorted already.) -/
def tableLines : List (List Nat × Nat) → Nat → Py (List Str)
  | [], _ => .ok []
  | (bytes, n) :: more, i => do
    let description ← formatAsBits bytes n
    let rest ← tableLines more (i + 1)
    return (readableCode i ++ b!" (" ++ rjust 3 (dec i) ++ b!"): " ++ description) :: rest

/-- huffman.py 191-207, FormatCodeTable. -/
def formatCodeTable (h : Huffman) : Py Str := do
  let lines ← tableLines h.codeTable 0
  return joinWith b!"\n" lines

/-- common_utils.py 6-8, ListToStr: `'%c' % c` raises OverflowError above 255. -/
def listToStr : List Nat → Py Str
  | [] => .ok []
  | c :: cs => if c < 256 then (listToStr cs).map (c :: ·) else .error .overflow

/-- delta/huffman_test.py 58-67: the test of one string; whether it says that it worked. -/
def test1 (h : Huffman) (s : Str) : Py Bool := do
  let e ← encode h s false
  let _ ← formatAsBits e.1 e.2
  let d ← decode h e.1 false e.2
  let d ← listToStr d
  return d = s

/-- delta2/huffman_test.py 123-135: the test of one string; whether it says that it worked. -/
def test2 (h : Huffman) (s : Str) : Py Bool := do
  let bb ← encodeToBB h BitBucket.empty s true
  let _ ← formatAsBits bb.output (numBits bb).toNat
  let (_, d) ← decodeFromBB h bb true (-1)
  let d ← listToStr d
  return d = s

end Verif.Delta1
