import Verif.Bits.Model
/-
Model of compressor/delta2/huffman.py (class Huffman); the copies in delta, delta_bohe and
delta2_bohe build their trees in the same way.

Weights are values of an arbitrary type `W` with an addition and a comparison, so that what is
proved of the code tables holds in particular for Python's floats, whatever they round to.  Symbols
are natural numbers (`MN`, lines 41-44, has already been applied).

`BuildDecodeTable` is in Lookup.lean.  Left out: debug output, `GetNextNode` (never called) and the
code behind the `return` in `BuildCodeTable`.
-/
namespace Verif.Huff
open Verif Verif.Bits

/-- A frequency table: (symbol, count). -/
abbrev FreqTable := List (Nat × Nat)

/-- Arithmetic on weights: `a + b`, `a <= b` and `freq * 1.0 / divisor`, which may raise. -/
structure Weights (W : Type) where
  add : W → W → W
  le : W → W → Bool
  ofFreq : Nat → Nat → Py W

/-- A node `[weight, symbol, depth, children]` of the code tree; leaves have depth 0. -/
inductive Tree (W : Type) where
  | leaf (w : W) (sym : Nat)
  | node (w : W) (depth : Nat) (l r : Tree W)
  deriving DecidableEq, Repr

/-- `node[0]`. -/
def Tree.weight {W : Type} : Tree W → W
  | .leaf w _ => w
  | .node w _ _ _ => w

/-- `node[2]`. -/
def Tree.depth {W : Type} : Tree W → Nat
  | .leaf _ _ => 0
  | .node _ d _ _ => d

/-- Put an element in front of the first one that is not smaller. -/
def insertBy {α : Type} (le : α → α → Bool) (x : α) : List α → List α
  | [] => [x]
  | y :: ys => if le x y then x :: y :: ys else y :: insertBy le x ys

/-- `sorted(l)`, stable. -/
def sortBy {α : Type} (le : α → α → Bool) : List α → List α
  | [] => []
  | x :: xs => insertBy le x (sortBy le xs)

variable {W : Type} (ops : Weights W)

/-- The order of the tuples `(weight, sym, 0, [])`. -/
def leafLe (a b : W × Nat) : Bool := !ops.le b.1 a.1 || (ops.le a.1 b.1 && a.2 ≤ b.2)

/-- huffman.py 51-56: the leaves, `1.0/512` standing for frequency 0 is up to `ofFreq`. -/
def makeLeaves (divisor : Nat) : FreqTable → Py (List (W × Nat))
  | [] => .ok []
  | (sym, freq) :: t => do
    let w ← ops.ofFreq freq divisor
    let rest ← makeLeaves divisor t
    pure ((w, sym) :: rest)

/-- huffman.py 65-73: take the smaller of the two front nodes, leaves first. -/
def pickNode (leaves internals : List (Tree W)) : Py (Tree W × List (Tree W) × List (Tree W)) :=
  match leaves, internals with
  | l :: ls, i :: is =>
    if ops.le l.weight i.weight then .ok (l, ls, i :: is) else .ok (i, l :: ls, is)
  | l :: ls, [] => .ok (l, ls, [])
  | [], i :: is => .ok (i, [], is)
  | [], [] => .error .index

/-- huffman.py 62-75; the number of leaves is enough fuel. -/
def buildLoop : Nat → List (Tree W) → List (Tree W) → Py (List (Tree W) × List (Tree W))
  | fuel, leaves, internals =>
    if leaves.length + internals.length > 1 then
      match fuel with
      | 0 => .error .outOfFuel
      | fuel + 1 => do
        let (a, leaves, internals) ← pickNode ops leaves internals
        let (b, leaves, internals) ← pickNode ops leaves internals
        buildLoop fuel leaves
          (internals ++ [Tree.node (ops.add a.weight b.weight) (max a.depth b.depth + 1) a b])
    else .ok (leaves, internals)

/-- huffman.py 36-79, BuildCodeTree; the code returns the depth, which is `tree.depth`. -/
def buildCodeTree (table : FreqTable) (divisor : Nat) : Py (Tree W) :=
  if table.length < 2 then .error .standard
  else do
    let leaves ← makeLeaves ops divisor table
    let leaves := (sortBy (leafLe ops) leaves).map fun p => Tree.leaf p.1 p.2
    let (leaves, internals) ← buildLoop ops leaves.length leaves []
    if leaves.length ≠ 0 then .error .standard
    else match internals.getLast? with
      | some t => pure t
      | none => .error .index

/-- huffman.py 81-92, DiscoverDepthAndStoreIt: a walk by depth collecting the symbols of each depth.
The code stores `(weight, symbol)` pairs, of which only the symbols are read. -/
def discover : Nat → List (Tree W × Nat) → Dict Nat (List Nat) → Py (Dict Nat (List Nat))
  | _, [], d => .ok d
  | 0, _ :: _, _ => .error .outOfFuel
  | fuel + 1, (.leaf _ sym, depth) :: q, d =>
    discover fuel q (d.set depth ((d.get? depth).getD [] ++ [sym]))
  | fuel + 1, (.node _ _ l r, depth) :: q, d =>
    discover fuel (q ++ [(l, depth + 1), (r, depth + 1)]) d

/-- The number of nodes. -/
def Tree.size : Tree W → Nat
  | .leaf _ _ => 1
  | .node _ _ l r => l.size + r.size + 1

/-- `'{0:0wb}'.format(v)`: `v` in binary with at least `w` digits, most significant first. -/
def binary (w v : Nat) : List Bool :=
  (List.range (max w (Nat.log2 v + 1))).map fun i => v.testBit (max w (Nat.log2 v + 1) - 1 - i)

/-- `int(s, 2)`. -/
def intBase2 (s : List Bool) : Nat := s.foldl (fun n b => 2 * n + b.toNat) 0

/-- The loop huffman.py 104-111; the number of digits is enough fuel. -/
def brepLoop : Nat → List Bool → List Nat
  | 0, _ => []
  | fuel + 1, s =>
    if 8 < s.length then intBase2 (s.take 8) :: brepLoop fuel (s.drop 8)
    else if s.length ≠ 0 then [intBase2 (s ++ List.replicate (8 - s.length) false)] else []

/-- huffman.py 94-112, BinaryStringToBREP: (list of bytes, number of bits). -/
def binaryStringToBrep (s : List Bool) : Py (List Nat × Nat) :=
  if s.length = 0 then .error .standard else .ok (brepLoop s.length s, s.length)

/-- State of the loops huffman.py 118-140. -/
structure CanonSt where
  code : Int
  prev : Nat
  table : Dict Nat (List Nat × Nat)
  deriving DecidableEq, Repr

/-- huffman.py 124-140, one symbol: the next code of length `len`. -/
def canonStep (st : CanonSt) (len sym : Nat) : Py CanonSt :=
  if len < st.prev then .error .value
  else
    let code := (st.code + 1) * 2 ^ (len - st.prev)
    do
      let brep ← binaryStringToBrep (binary len code.toNat)
      pure { code := code, prev := len, table := st.table.set sym brep }

/-- huffman.py 124-140, the symbols of one length. -/
def canonSyms (len : Nat) : List Nat → CanonSt → Py CanonSt
  | [], st => .ok st
  | sym :: syms, st => do
    let st ← canonStep st len sym
    canonSyms len syms st

/-- huffman.py 121-140, all lengths, in the order in which the dictionary delivers them. -/
def canonLoop : List (Nat × List Nat) → CanonSt → Py CanonSt
  | [], st => .ok st
  | (len, syms) :: gs, st => do
    let st ← canonSyms len (sortBy (fun a b => decide (a ≤ b)) syms) st
    canonLoop gs st

/-- huffman.py 141-144: the codes of the symbols 0, 1, 2, ... -/
def tabulate (table : Dict Nat (List Nat × Nat)) : List Nat → Py (List (List Nat × Nat))
  | [] => .ok []
  | sym :: syms => do
    let c ← match table.get? sym with
      | some c => Except.ok c
      | none => Except.error PyErr.key
    let cs ← tabulate table syms
    pure (c :: cs)

/-- huffman.py 115-144, BuildCanonicalCodeTable; `ord` is the order in which `iteritems` delivers
the entries of a dictionary whose keys were inserted in the given order. -/
def canonicalTable (ord : Dict Nat (List Nat) → List (Nat × List Nat)) (t : Tree W) :
    Py (List (List Nat × Nat)) := do
  let d ← discover t.size [(t, 0)] []
  let st ← canonLoop (ord d) { code := -1, prev := 0, table := [] }
  tabulate st.table (List.range st.table.length)

/-- The decode tree, `[None, symbol, depth, [child, child]]`; `empty` is a missing child. -/
inductive DTree where
  | empty
  | leaf (sym : Nat)
  | node (l r : DTree)
  deriving DecidableEq, Repr

/-- huffman.py 152-159: follow the bits, creating nodes, and turn the last one into a leaf. -/
def DTree.insert : DTree → List Bool → Nat → Py DTree
  | _, [], sym => .ok (.leaf sym)
  | .leaf _, _ :: _, _ => .error .index
  | .empty, b :: bs, sym => do
    let c ← DTree.insert (.node .empty .empty) bs sym
    pure (if b then .node .empty c else .node c .empty)
  | .node l r, b :: bs, sym =>
    if b then do
      let c ← DTree.insert (if r = .empty then .node .empty .empty else r) bs sym
      pure (.node l c)
    else do
      let c ← DTree.insert (if l = .empty then .node .empty .empty else l) bs sym
      pure (.node c r)

/-- huffman.py 153-157, the bits of a code as the bucket `bb` delivers them; the number of bits is
enough fuel. -/
def drain : Nat → BitBucket → Py (List Bool)
  | 0, bb => if allConsumed bb then .ok [] else .error .outOfFuel
  | fuel + 1, bb =>
    if allConsumed bb then .ok []
    else do
      let (bb, bit) ← getBit bb
      let rest ← drain fuel bb
      pure ((bit != 0) :: rest)

/-- huffman.py 148-159, for the symbols from `sym` on. -/
def rebuildLoop : List (List Nat × Nat) → Nat → DTree → Py DTree
  | [], _, t => .ok t
  | (bytes, n) :: cs, sym, t => do
    let bb ← storeBits BitBucket.empty bytes n
    let bits ← drain n bb
    let t ← t.insert bits sym
    rebuildLoop cs (sym + 1) t

/-- huffman.py 146-160, RebuildDecodeTreeFromCanonicalCodes. -/
def rebuild (codes : List (List Nat × Nat)) : Py DTree :=
  rebuildLoop codes 0 (.node .empty .empty)

/-- A Huffman object: `code_table` and the decode tree. -/
structure Huffman where
  codeTable : List (List Nat × Nat)
  tree : DTree
  deriving DecidableEq, Repr

/-- huffman.py 254-263, BuildCodeTable. -/
def buildCodeTable (ord : Dict Nat (List Nat) → List (Nat × List Nat)) (t : Tree W) : Py Huffman := do
  let codes ← canonicalTable ord t
  let tree ← rebuild codes
  pure { codeTable := codes, tree := tree }

/-- The loop huffman.py 21-26. -/
def retryLoop (table : FreqTable) : Nat → Nat → Py (Tree W)
  | 0, _ => .error .outOfFuel
  | fuel + 1, divisor => do
    let t ← buildCodeTree ops table divisor
    if t.depth ≤ 32 then pure t else retryLoop table fuel (divisor * 2)

/-- huffman.py 15-28, the constructor.  1025 iterations are enough fuel when `ofFreq` refuses
divisors from `2 ** 1024` on. -/
def huffman (ord : Dict Nat (List Nat) → List (Nat × List Nat)) (table : FreqTable) : Py Huffman := do
  let t ← retryLoop ops table 1025 1
  buildCodeTable ord t

/-- `code_table[c]`. -/
def codeOf (h : Huffman) (c : Nat) : Py (List Nat × Nat) :=
  match h.codeTable[c]? with
  | some x => .ok x
  | none => .error .index

/-- huffman.py 285-298, EncodeToBB. -/
def encodeToBB (h : Huffman) (bb : BitBucket) (text : List Nat) (includeEof : Bool) : Py BitBucket :=
  match text with
  | c :: cs => do
    let code ← codeOf h c
    let bb ← storeBits bb code.1 code.2
    encodeToBB h bb cs includeEof
  | [] =>
    if includeEof then do
      let code ← codeOf h 256
      storeBits bb code.1 code.2
    else .ok bb

/-- huffman.py 300-308, Encode. -/
def encode (h : Huffman) (text : List Nat) (includeEof : Bool) : Py (List Nat × Nat) := do
  let bb ← encodeToBB h BitBucket.empty text includeEof
  pure (bb.output, (numBits bb).toNat)

/-- huffman.py 326-330: walk from the root to a leaf; the symbol and the number of bits read. -/
def walk : DTree → BitBucket → Py (BitBucket × Nat × Nat)
  | .empty, _ => .error .type
  | .leaf sym, bb => .ok (bb, sym, 0)
  | .node l r, bb => do
    let (bb, bit) ← getBit bb
    (if bit = 0 then walk l bb else walk r bb).map fun x => (x.1, x.2.1, x.2.2 + 1)

/-- The loop huffman.py 325-336.  The number of unread bits plus one is enough fuel, unless the
root is a leaf. -/
def decodeLoop (tree : DTree) (includesEof : Bool) (want : Int) :
    Nat → BitBucket → Nat → List Nat → Py (BitBucket × Nat × List Nat)
  | fuel, bb, total, out =>
    if want < 0 ∨ (total : Int) < want then
      match fuel with
      | 0 => .error .outOfFuel
      | fuel + 1 => do
        let (bb, sym, n) ← walk tree bb
        if includesEof = true ∧ sym = 256 then .ok (bb, total + n, out)
        else decodeLoop tree includesEof want fuel bb (total + n) (out ++ [sym])
    else .ok (bb, total, out)

/-- huffman.py 310-339, DecodeFromBB. -/
def decodeFromBB (h : Huffman) (bb : BitBucket) (includesEof : Bool) (bitsToDecode : Int) :
    Py (BitBucket × List Nat) :=
  if includesEof = false ∧ bitsToDecode ≤ 0 then .error .standard
  else do
    let want : Int := if bitsToDecode ≤ 0 then -1 else bitsToDecode
    let (bb, total, out) ← decodeLoop h.tree includesEof want (8 * bb.output.length + 1) bb 0 []
    if want > 0 ∧ (total : Int) < want then do
      let (bb, _) ← getBits bb (want - total).toNat
      pure (bb, out)
    else pure (bb, out)

end Verif.Huff
