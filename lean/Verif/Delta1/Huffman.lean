import Verif.Huff.Model
/-
Model of compressor/delta/huffman.py (class Huffman).  It differs from delta2's: the weights are the counts
themselves, the codes are the paths of the tree (not canonical ones), and the tree itself is used for decoding.
Encoding and decoding (lines 101-151) are the same; the model shares `encode` and `decodeFromBB`.

Left out: `Decode` (never called) and debug output.
-/
namespace Verif.Delta1
open Verif Verif.Bits Verif.Huff

/-- The weights, huffman.py 36: the counts, which are integers. -/
def counts : Weights Nat where
  add := (· + ·)
  le a b := decide (a ≤ b)
  ofFreq freq _ := .ok freq

/-- huffman.py 22-53, BuildCodeTree: as in delta2, but no divisor, and no depth in the nodes. -/
def codeTree (table : FreqTable) : Py (Tree Nat) := buildCodeTree counts table 1

/-- The loop huffman.py 83-93: (symbol, path); the right child is put in front of the left one. -/
def collect : Nat → List (Tree Nat × List Bool) → List (Nat × List Bool) → Py (List (Nat × List Bool))
  | _, [], out => .ok out
  | 0, _ :: _, _ => .error .outOfFuel
  | fuel + 1, (.leaf _ sym, path) :: q, out => collect fuel q (out ++ [(sym, path)])
  | fuel + 1, (.node _ _ l r, path) :: q, out => collect fuel ((r, path ++ [true]) :: (l, path ++ [false]) :: q) out

/-- The loop huffman.py 95-99, from number `i` on. -/
def codeLoop : Nat → List (Nat × List Bool) → Py (List (List Nat × Nat))
  | _, [] => .ok []
  | i, (name, s) :: t =>
    if i ≠ name then .error .standard
    else do
      let c ← binaryStringToBrep s
      let cs ← codeLoop (i + 1) t
      pure (c :: cs)

/-- The code tree as DecodeFromBB sees it: symbols and children. -/
def dtree : Tree Nat → DTree
  | .leaf _ s => .leaf s
  | .node _ _ l r => .node (dtree l) (dtree r)

/-- huffman.py 75-99, BuildCodeTable. -/
def codeTable (t : Tree Nat) : Py (List (List Nat × Nat)) := do
  let pre ← collect t.size [(t, [])] []
  codeLoop 0 (sortBy (fun a b => decide (a.1 ≤ b.1)) pre)

/-- huffman.py 15-20, the constructor. -/
def huffman (table : FreqTable) : Py Huffman := do
  let t ← codeTree table
  let codes ← codeTable t
  pure ⟨codes, dtree t⟩

end Verif.Delta1
