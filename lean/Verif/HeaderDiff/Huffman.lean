import Verif.Py
import Verif.HeaderDiff.Tables
/-
Model of compressor/headerdiff/Huffman.py.

* A symbol is a number: a character is its code, and the other keys (integers from 256 on) are themselves.
* A Node knows its parent only to compute its code; the model computes all codes from the root down.
* `string_encoding`, `decode` of a Node, `prt` and `has_bits` are not used by the compressor and are left out.
* An encoder or decoder of bits is reset before each use, so nothing survives in the codec.
-/
namespace Verif.HeaderDiff
open Verif

/-- Huffman.py 20-28, 59-65: a Node; an inner one has two children. -/
inductive Node where
  | leaf (priority symbol : Nat)
  | inner (priority : Nat) (left right : Node)
  deriving DecidableEq, Repr

/-- The attribute `priority`. -/
def Node.priority : Node → Nat
  | .leaf p _ => p
  | .inner p _ _ => p

/-- Huffman.py 59-65, `self + other`. -/
def Node.add (a b : Node) : Node := .inner (a.priority + b.priority) a b

/-- Huffman.py 77-85, pick_node: the node and what remains of both lists. -/
def pickNode : List Node → List Node → Py (Node × List Node × List Node)
  | [], [] => .error .index
  | [], b :: l2 => .ok (b, [], l2)
  | a :: l1, [] => .ok (a, l1, [])
  | a :: l1, b :: l2 => if a.priority ≤ b.priority then .ok (a, l1, b :: l2) else .ok (b, a :: l1, l2)

/-- Huffman.py 93-96: the loop of create_tree.  The first argument bounds the number of turns. -/
def treeLoop : Nat → List Node → List Node → Py (List Node × List Node)
  | 0, _, _ => .error .outOfFuel
  | fuel + 1, onodes, nnodes =>
    if onodes.length + nnodes.length ≥ 2 then
      match pickNode onodes nnodes with
      | .error e => .error e
      | .ok (n1, onodes, nnodes) =>
        match pickNode onodes nnodes with
        | .error e => .error e
        | .ok (n2, onodes, nnodes) => treeLoop fuel onodes (nnodes ++ [n1.add n2])
    else .ok (onodes, nnodes)

/-- Insertion into a list sorted by priority, behind equal ones. -/
def insertNode (n : Node) : List Node → List Node
  | [] => [n]
  | m :: l => if n.priority < m.priority then n :: m :: l else m :: insertNode n l

/-- Huffman.py 90, `sorted(original_nodes, key=...)`: a stable sort. -/
def sortNodes (l : List Node) : List Node := l.foldl (fun acc n => insertNode n acc) []

/-- Huffman.py 87-98, create_tree; the items are in the order of `symbols.items()`. -/
def createTree (items : List (Nat × Nat)) : Py Node :=
  let original := items.map fun kv => Node.leaf kv.2 kv.1
  match treeLoop (items.length + 1) (sortNodes original) [] with
  | .error e => .error e
  | .ok (_, []) => .error .index
  | .ok (_, root :: _) => .ok root

/-- Huffman.py 40-48, encoding: the code (as a number) and its length, of every leaf below a node whose own
code is `v` of length `l`. -/
def Node.encodings : Node → Nat → Nat → List (Nat × (Nat × Nat))
  | .leaf _ s, v, l => [(s, (v, l))]
  | .inner _ a b, v, l => a.encodings (v <<< 1) (l + 1) ++ b.encodings ((v <<< 1) + 1) (l + 1)

/-- Huffman.py 103-105, normalize_stats. -/
def normalizeStats (stats : List (Nat × Nat)) : List (Nat × Nat) :=
  stats.map fun kv => (kv.1, if kv.2 = 0 then 1 else kv.2)

/-- Huffman.py 107-134, a BitEncoder. -/
structure BitEncoder where
  bytes : List Nat
  current : Nat
  free : Nat
  deriving DecidableEq, Repr

/-- Huffman.py 112-115, reset. -/
def BitEncoder.reset : BitEncoder := { bytes := [], current := 0, free := 8 }

/-- `chr(c)`. -/
def chr (c : Nat) : Py Nat := if c < 256 then .ok c else .error .value

/-- Huffman.py 117-128, push_bits.  The first argument bounds the number of turns of the loop. -/
def BitEncoder.pushLoop : Nat → BitEncoder → Nat → Nat → Py BitEncoder
  | 0, _, _, _ => .error .outOfFuel
  | fuel + 1, e, value, count =>
    if count = 0 then .ok e
    else if e.free ≤ count then do
      let c ← chr ((e.current <<< e.free) + ((value >>> (count - e.free)) &&& (0xFF >>> (8 - e.free))))
      pushLoop fuel { bytes := e.bytes ++ [c], current := 0, free := 8 } value (count - e.free)
    else
      pushLoop fuel { e with current := (e.current <<< count) + (value &&& (0xFF >>> (8 - count))),
                             free := e.free - count } value 0

/-- Huffman.py 117-128, push_bits. -/
def BitEncoder.pushBits (e : BitEncoder) (value count : Nat) : Py BitEncoder := e.pushLoop (count + 2) value count

/-- Huffman.py 130-134, code. -/
def BitEncoder.code (e : BitEncoder) : Py (List Nat) :=
  if e.free < 8 then do
    let c ← chr (e.current <<< e.free)
    .ok (e.bytes ++ [c])
  else .ok e.bytes

/-- Huffman.py 136-161, a BitDecoder. -/
structure BitDecoder where
  code : List Nat
  index : Nat
  current : Nat
  bit : Nat
  deriving DecidableEq, Repr

/-- Huffman.py 144-148, reset. -/
def BitDecoder.reset (code : List Nat) : BitDecoder := { code := code, index := 0, current := 0, bit := 8 }

/-- Huffman.py 138-140, masks. -/
def masks : List Nat := [0x80, 0x40, 0x20, 0x10, 0x08, 0x04, 0x02, 0x01]

/-- Huffman.py 150-158, next_bit. -/
def BitDecoder.nextBit (d : BitDecoder) : Py (Nat × BitDecoder) := do
  let d ← if d.bit ≥ 8 then
      match d.code[d.index]? with
      | none => .error .index
      | some c => .ok { d with current := c, index := d.index + 1, bit := 0 }
    else .ok d
  match masks[d.bit]? with
  | none => .error .index
  | some m => .ok (d.current &&& m, { d with bit := d.bit + 1 })

/-- Huffman.py 188-195: from a node down to a leaf. -/
def Node.descend : Node → BitDecoder → Py (Nat × BitDecoder)
  | .leaf _ s, d => .ok (s, d)
  | .inner _ a b, d => do
    let (code, d) ← d.nextBit
    if code ≠ 0 then b.descend d else a.descend d

/-- Huffman.py 163-171: a HuffmanCodec. -/
structure HCodec where
  encoder : Dict Nat (Nat × Nat)
  root : Node
  deriving DecidableEq, Repr

/-- Huffman.py 165-171: the constructor.  `order` is the iteration order of the normalised dictionary. -/
def HCodec.make (order : List (Nat × Nat) → List (Nat × Nat)) (stats : List (Nat × Nat)) : Py HCodec := do
  let root ← createTree (order (normalizeStats stats))
  .ok { encoder := (root.encodings 0 0).foldl (fun d p => Dict.set d p.1 p.2) [], root := root }

/-- Huffman.py 175-177: the loop of encode. -/
def HCodec.pushAll (h : HCodec) : List Nat → BitEncoder → Py BitEncoder
  | [], e => .ok e
  | c :: s, e =>
    match Dict.get? h.encoder c with
    | none => .error .key
    | some (v, l) => do
      let e ← e.pushBits v l
      pushAll h s e

/-- Huffman.py 173-179, encode. -/
def HCodec.encode (h : HCodec) (s : Str) : Py (List Nat) := do
  let e ← h.pushAll s BitEncoder.reset
  let e ← h.pushAll [256] e
  e.code

/-- Huffman.py 185-197: the loop of decode.  The first argument bounds the number of turns. -/
def HCodec.decodeLoop (h : HCodec) : Nat → BitDecoder → Str → Py (Str × BitDecoder)
  | 0, _, _ => .error .outOfFuel
  | fuel + 1, d, res => do
    let (last, d) ← h.root.descend d
    let res := if last < 256 then res ++ [last] else res
    if last = 256 then .ok (res, d) else decodeLoop h fuel d res

/-- Huffman.py 181-199, decode: the string and the number of bytes read.  Every turn reads at least one bit
(the root has children), so the bound is not reached. -/
def HCodec.decode (h : HCodec) (s : List Nat) : Py (Str × Nat) := do
  let (res, d) ← h.decodeLoop (8 * s.length + 1) (BitDecoder.reset s) []
  .ok (res, d.index)

end Verif.HeaderDiff
