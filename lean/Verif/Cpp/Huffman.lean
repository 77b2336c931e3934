import Verif.Cpp.BitBucket
import Verif.Huff.Model
/-
Model of compressor/delta/huffman.h (class Huffman; the copy in delta_bohe differs in that the
constants 8 and 4 are not members).

As in `Cpp/BitBucket.lean`, `.index` stands for an access outside a vector and `.assertion` for
abort(); `.overflow` stands for a shift by 32 or more or by a negative number and `.zeroDiv` for a
division by zero, which are undefined behaviour too.

The tree is built as in Python (`Huff.makeLeaves`, `Huff.sortBy`, `Huff.buildLoop`), over any weights.
A `double` is weight `0` plus the weights of the two children, which is their sum.

Left out: freeing memory, debug output, BuildCodeTableHelper, BitPatternCmp and the field `ref`, which
nothing uses.  `int` and `size_t` are unbounded.
-/
namespace Verif.Cpp
open Verif Huff

/-- huffman.h 68-74, VecAndLen. -/
structure CodeEntry where
  vec : List Nat
  len : Nat
  val : Nat
  deriving DecidableEq, Repr

/-- huffman.h 300-303, DecodeEntry. -/
structure DecodeEntry where
  sym : Nat
  next : Nat
  valid : Bool
  deriving DecidableEq, Repr

/-- huffman.h 304, an entry not yet filled in. -/
def DecodeEntry.none : DecodeEntry := { sym := 0, next := 0, valid := false }

/-- huffman.h 306-307. -/
def DecodeEntry.make (sym next : Nat) : DecodeEntry := { sym := sym % 2 ^ 16, next := next % 2 ^ 8, valid := true }

/-- huffman.h 320-324, BranchEntry. -/
structure Branch where
  base : Nat
  mask : Nat
  shift : Nat
  deriving DecidableEq, Repr

/-- The members of class Huffman that are read after Init. -/
structure Coder where
  codes : List CodeEntry
  branches : List Branch
  entries : List DecodeEntry
  deriving DecidableEq, Repr

/-- huffman.h 453, a new object. -/
def Coder.fresh : Coder := { codes := List.replicate 257 ⟨[], 0, 0⟩, branches := [], entries := [] }

section Tree
variable {W : Type} (ops : Weights W)

/-- huffman.h 138-178, BuildCodeTree (with GetNextNode, 78-106, and NodePtrComp, 108-117) (asserts absent). -/
def buildTree (table : FreqTable) (divisor : Nat) : Py (Tree W) :=
  if table.length ≤ 2 then .error .assertion
  else do
    let leaves ← makeLeaves ops divisor table
    let leaves := (sortBy (leafLe ops) leaves).map fun p => Tree.leaf p.1 p.2
    let (_, internals) ← buildLoop ops leaves.length leaves []
    match internals.head? with
    | some t => pure t
    | none => .error .index

/-- huffman.h 459-461, the loop of Init: `divisor` is a uint32_t. -/
def retry (table : FreqTable) : Nat → Nat → Py (Tree W)
  | 0, _ => .error .outOfFuel
  | fuel + 1, divisor =>
    if divisor = 0 then .error .zeroDiv
    else do
      let t ← buildTree ops table divisor
      if t.depth > 32 then retry table fuel (divisor * 2 % 2 ^ 32) else pure t

end Tree

/-- huffman.h 202-222, DiscoverDepthAndStoreIt: `stack.back()` is the head of the list. -/
def discoverC {W : Type} : Nat → List (Tree W × Nat) → Dict Nat (List Nat) → Py (Dict Nat (List Nat))
  | _, [], d => .ok d
  | 0, _ :: _, _ => .error .outOfFuel
  | fuel + 1, (.leaf _ sym, depth) :: q, d =>
    discoverC fuel q (d.set depth ((d.get? depth).getD [] ++ [sym]))
  | fuel + 1, (.node _ _ l r, depth) :: q, d =>
    discoverC fuel ((r, depth + 1) :: (l, depth + 1) :: q) d

/-- The entries of a std::map in the order of their keys. -/
def ascending (d : Dict Nat (List Nat)) : List (Nat × List Nat) := sortBy (fun a b => decide (a.1 ≤ b.1)) d

/-- `x << n` on uint32_t. -/
def shl32 (x n : Nat) : Py Nat := if n < 32 then .ok ((x <<< n) % 2 ^ 32) else .error .overflow

/-- `a - b` as the distance of a shift. -/
def distance (a b : Nat) : Py Nat := if b ≤ a then .ok (a - b) else .error .overflow

/-- huffman.h 224-233, ComputeNextCode. -/
def computeNextCode (prevCode curLen prevLen : Nat) : Py Nat := do
  let n ← distance curLen prevLen
  shl32 ((prevCode + 1) % 2 ^ 32) n

/-- huffman.h 235-240, Uint32ToCharArray. -/
def uint32ToCharArray (val bitLen : Nat) : Py (List Nat) := do
  let n ← distance 32 bitLen
  let nval ← shl32 val n
  pure ((List.range ((bitLen + 7) / 8)).map fun i => (nval >>> (24 - 8 * i)) % 256)

/-- `a[i] = x`. -/
def store {α : Type} (l : List α) (i : Nat) (x : α) : Py (List α) :=
  if i < l.length then .ok (l.set i x) else .error .index

/-- The variables of the loop huffman.h 248-264. -/
structure NextCode where
  code : Nat
  prev : Nat
  codes : List CodeEntry
  deriving DecidableEq, Repr

/-- huffman.h 255-260, one symbol. -/
def canonSymC (st : NextCode) (len sym : Nat) : Py NextCode := do
  let code ← computeNextCode st.code len st.prev
  let n ← distance 32 len
  let val ← shl32 code n
  let vec ← uint32ToCharArray code len
  let codes ← store st.codes sym { vec := vec, len := len, val := val }
  pure { code := code, prev := len, codes := codes }

/-- huffman.h 254-263, the symbols of one length. -/
def canonSymsC (len : Nat) : List Nat → NextCode → Py NextCode
  | [], st => .ok st
  | sym :: syms, st => do
    let st ← canonSymC st len sym
    canonSymsC len syms st

/-- huffman.h 248-264, all lengths. -/
def canonLoopC : List (Nat × List Nat) → NextCode → Py NextCode
  | [], st => .ok st
  | (len, syms) :: gs, st => do
    let st ← canonSymsC len (sortBy (fun a b => decide (a ≤ b)) syms) st
    canonLoopC gs st

/-- huffman.h 242-265, BuildCanonicalCodeTable. -/
def canonicalC {W : Type} (t : Tree W) (codes : List CodeEntry) : Py (List CodeEntry) := do
  let d ← discoverC t.size [(t, 0)] []
  let st ← canonLoopC (ascending d) { code := 2 ^ 32 - 1, prev := 0, codes := codes }
  pure st.codes

/-- huffman.h 326-330, the constructor of BranchEntry. -/
def mkBranch (base msb bw : Nat) : Py Branch := do
  let n ← distance 32 bw
  let m ← shl32 (2 ^ 32 - 1) n
  if msb < 32 then pure { base := base, mask := m >>> msb, shift := 32 - min (msb + bw) 32 }
  else .error .overflow

/-- huffman.h 295-296 and 371, the index of a code in the table of one level. -/
def codeIdx (msb bw code : Nat) : Py Nat := do
  let x ← shl32 code msb
  let n ← distance 32 bw
  if n < 32 then pure (x >>> n) else .error .overflow

/-- huffman.h 361-366 with 288-298, Equivalent: the codes with the index `idx` in front, and the rest. -/
def takeRun (msb bw idx : Nat) : List (Nat × Nat) → Py (List (Nat × Nat) × List (Nat × Nat))
  | [] => .ok ([], [])
  | c :: cs => do
    let i ← codeIdx msb bw c.1
    if i = idx then do
      let (run, rest) ← takeRun msb bw idx cs
      pure (c :: run, rest)
    else pure ([], c :: cs)

/-- The tables being built. -/
structure Tables where
  branches : List Branch
  entries : List DecodeEntry
  deriving DecidableEq, Repr

/-- huffman.h 358-403, the loop of BuildDecodeHelper over the codes `seg`; `rec` is the recursive call.
The number of codes is enough fuel. -/
def buildRuns (codes : List CodeEntry)
    (rec : List (Nat × Nat) → Nat → Nat → Tables → Py Tables) (branchIdx base msb bw : Nat) :
    Nat → List (Nat × Nat) → Tables → Py Tables
  | _, [], st => .ok st
  | 0, _ :: _, _ => .error .outOfFuel
  | fuel + 1, c :: cs, st => do
    let idx ← codeIdx msb bw c.1
    let (run, rest) ← takeRun msb bw idx cs
    if run = [] then do
      let entries ← store st.entries (base + idx) (DecodeEntry.make c.2 branchIdx)
      buildRuns codes rec branchIdx base msb bw fuel rest { st with entries := entries }
    else do
      let sym := ((c :: run).getLast?.getD c).2
      let len ← match codes[sym]? with
        | some e => Except.ok e.len
        | none => Except.error PyErr.index
      let nxtBitLen := (len + 2 ^ 32 - (msb + bw) % 2 ^ 32) % 2 ^ 32
      let entries ← store st.entries (base + idx) (DecodeEntry.make 0 st.branches.length)
      let st ← rec (c :: run) (msb + bw) (min bw nxtBitLen) { st with entries := entries }
      buildRuns codes rec branchIdx base msb bw fuel rest st

/-- huffman.h 344-404, BuildDecodeHelper for the codes `seg`.  33 levels are enough fuel, since `msb`
grows and must be less than 32. -/
def buildHelper (codes : List CodeEntry) : Nat → List (Nat × Nat) → Nat → Nat → Tables → Py Tables
  | 0, _, _, _, _ => .error .outOfFuel
  | fuel + 1, seg, msb, bw, st => do
    let br ← mkBranch st.entries.length msb bw
    buildRuns codes (buildHelper codes fuel) st.branches.length st.entries.length msb bw seg.length seg
      { branches := st.branches ++ [br],
        entries := st.entries ++ List.replicate (2 ^ bw) DecodeEntry.none }

/-- huffman.h 428-432: entries not filled in are copies of the one before; the first one has none. -/
def fill (prev : Option DecodeEntry) : List DecodeEntry → Py (List DecodeEntry)
  | [] => .ok []
  | e :: es => do
    let e ← if e.valid then Except.ok e else match prev with
      | some p => Except.ok p
      | none => Except.error PyErr.index
    let es ← fill (some e) es
    pure (e :: es)

/-- The order of pairs. -/
def pairLe (a b : Nat × Nat) : Bool := decide (a.1 < b.1 ∨ a.1 = b.1 ∧ a.2 ≤ b.2)

/-- huffman.h 410-436, BuildDecodeTable. -/
def buildDecode (codes : List CodeEntry) (branches : List Branch) (entries : List DecodeEntry) : Py Tables := do
  let byCode := sortBy pairLe (codes.zipIdx.map fun p => (p.1.val, p.2))
  let st ← buildHelper codes 33 byCode 0 8 { branches := branches, entries := entries }
  let es ← fill none st.entries
  pure { st with entries := es }

/-- huffman.h 457-464, Init (with BuildCodeTable, 438-444), on an object that may have been used before: the tables for decoding are
not cleared. -/
def init {W : Type} (ops : Weights W) (h : Coder) (table : FreqTable) : Py Coder := do
  let t ← retry ops table 33 1
  let codes ← canonicalC t h.codes
  let st ← buildDecode codes h.branches h.entries
  pure { codes := codes, branches := st.branches, entries := st.entries }

/-- `code_table[c]`. -/
def codeAt (h : Coder) (c : Nat) : Py CodeEntry :=
  match h.codes[c]? with
  | some x => .ok x
  | none => .error .index

/-- huffman.h 466-474, Encode. -/
def encodeC (h : Coder) (b : BB) (text : List Nat) (useEof : Bool) : Py BB :=
  match text with
  | c :: cs => do
    let e ← codeAt h c
    let b ← storeBits b e.vec e.len
    encodeC h b cs useEof
  | [] =>
    if useEof then do
      let e ← codeAt h 256
      storeBits b e.vec e.len
    else .ok b

/-- huffman.h 524-530, the lookups: the index of the last entry looked up. -/
def lookups (h : Coder) (word : Nat) : Nat → Nat → Nat → Py Nat
  | 0, _, dIdx => .ok dIdx
  | n + 1, bIdx, _ => do
    let br ← match h.branches[bIdx]? with
      | some x => Except.ok x
      | none => Except.error PyErr.index
    let dIdx := (br.base + (word &&& br.mask) >>> br.shift) % 2 ^ 32
    let e ← match h.entries[dIdx]? with
      | some x => Except.ok x
      | none => Except.error PyErr.index
    lookups h word n e.next dIdx

/-- huffman.h 520-535, DecodeFromWord: the symbol and the number of bits, as a uint8_t. -/
def decodeFromWord (h : Coder) (word : Nat) : Py (Nat × Nat) := do
  let d ← lookups h word 4 0 0
  let sym ← match h.entries[d]? with
    | some x => Except.ok x.sym
    | none => Except.error PyErr.index
  let e ← codeAt h sym
  pure (sym, e.len % 256)

/-- huffman.h 481-491, up to the end of string. -/
def decodeEof (h : Coder) : Nat → BB → Nat → Nat → List Nat → Py (BB × List Nat)
  | 0, _, _, _, _ => .error .outOfFuel
  | fuel + 1, b, word, shift, out => do
    let word := shiftBitsIntoWord b word shift
    let b := consumeBits b shift
    let (sym, n) ← decodeFromWord h word
    if sym = 256 then pure (b, out)
    else decodeEof h fuel b word n (out ++ [sym % 256])

/-- huffman.h 492-514, the two loops limited by bits; `eof` tells whether the end of string ends them. -/
def decodeBits (h : Coder) (eof : Bool) : Nat → BB → Nat → Nat → Int → List Nat → Py (BB × List Nat)
  | fuel, b, word, shift, left, out =>
    if left > 0 then
      match fuel with
      | 0 => .error .outOfFuel
      | fuel + 1 => do
        let word := shiftBitsIntoWord b word shift
        let b := consumeBits b shift
        let (sym, n) ← decodeFromWord h word
        if eof = true ∧ sym = 256 then pure (b, out)
        else decodeBits h eof fuel b word n (left - n) (out ++ [sym % 256])
    else .ok (b, out)

/-- huffman.h 476-518, Decode: the bucket and what is appended to the output.  The first shift is by 32
bits of a word that is 0.  `fuel` limits the number of symbols. -/
def decodeC (h : Coder) (b : BB) (useEof : Bool) (bitsToDecode : Int) (fuel : Nat) : Py (BB × List Nat) :=
  if useEof = true ∧ bitsToDecode ≤ 0 then decodeEof h fuel b 0 32 []
  else if useEof then decodeBits h true fuel b 0 32 bitsToDecode []
  else if bitsToDecode > 0 then decodeBits h false fuel b 0 32 bitsToDecode []
  else .error .assertion

end Verif.Cpp
