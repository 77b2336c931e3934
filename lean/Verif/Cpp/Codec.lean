import Verif.Cpp.Huffman
/-
Model of compressor/delta/spdy4_headers_codec.cc: the Storage, the codec and InlineSerialization
(without BIT_ALIGNED, as compiled).

A pointer to a ValEntry is a number; `heap` holds the entries that have not been deleted, and using a
pointer to one that has been is `.index` (undefined behaviour), like using an iterator to an erased
element.  `abort()` is `.assertion`.  An unsigned subtraction below zero is `.overflow` (it would wrap).

Simplifications: a multimap is a list in order of insertion (find returns the first of equal keys, as in
libstdc++; the order of different keys is never used); `map<ValEntry*, …>` is ordered by address in the
code: the order in which DiscoverTurnOffs visits a group is a parameter.  `frame_count` is unbounded
(a uint32_t).  ERefs are never made and left out, as is FixupFrameBoilerplate, which is never called.
-/
namespace Verif.Cpp
open Verif

/-- spdy4_headers_codec.cc 128-132, IDStore. -/
structure Ids where
  free : List Nat
  next : Nat
  deriving DecidableEq, Repr

/-- spdy4_headers_codec.cc 134-141, GetNext; LRUIdx is a uint16_t. -/
def Ids.getNext (s : Ids) : Nat × Ids :=
  match s.free with
  | x :: r => (x, { s with free := r })
  | [] => ((s.next + 1) % 65536, { s with next := (s.next + 1) % 65536 })

/-- Insertion into a `set`. -/
def insertSet (x : Nat) : List Nat → List Nat
  | [] => [x]
  | y :: l => if x < y then x :: y :: l else if x = y then y :: l else y :: insertSet x l

/-- spdy4_headers_codec.cc 143-145, DoneWithId. -/
def Ids.done (s : Ids) (i : Nat) : Ids := { s with free := insertSet i s.free }

/-- spdy4_headers_codec.cc 179-194, ValEntry. -/
structure CEntry where
  key : Str
  val : Str
  lruIdx : Nat
  inLru : Bool
  deriving DecidableEq, Repr

/-- spdy4_headers_codec.cc 158-174, KeyEntry. -/
structure CKey where
  idx : Nat
  refcnt : Nat
  vals : List (Str × Nat)
  deriving DecidableEq, Repr

/-- The state of a codec: spdy4_headers_codec.cc 201-211 and 564-567.  In `lru` the pin is `none`.
`nextPtr` is the address the next `new` returns. -/
structure Codec where
  keyIds : Ids
  lruIds : Ids
  stateSize : Nat
  maxState : Nat
  numVals : Nat
  maxVals : Nat
  keymap : Dict Str CKey
  lru : List (Option Nat)
  pinned : Bool
  heap : Dict Nat CEntry
  nextPtr : Nat
  groups : Dict Nat (Dict Nat Nat)
  frameCount : Nat
  deriving DecidableEq, Repr

/-- Use of a pointer. -/
def entryAt (s : Codec) (p : Nat) : Py CEntry :=
  match s.heap.get? p with
  | some e => .ok e
  | none => .error .index

/-- Use of an iterator into `keymap`. -/
def keyAt (s : Codec) (key : Str) : Py CKey :=
  match s.keymap.get? key with
  | some k => .ok k
  | none => .error .index

/-- `a -= b` on a size_t. -/
def subSize (a b : Nat) : Py Nat := if b ≤ a then .ok (a - b) else .error .overflow

/-- spdy4_headers_codec.cc 260-264, PinLRUEnd. -/
def pinLruEnd (s : Codec) : Codec :=
  { s with lru := (if s.pinned then s.lru.erase none else s.lru) ++ [none], pinned := true }

/-- spdy4_headers_codec.cc 384-399, RemoveFromLRU. -/
def removeFromLru (s : Codec) (p : Nat) (e : CEntry) : Codec :=
  if e.inLru then
    { s with lruIds := s.lruIds.done e.lruIdx, lru := s.lru.erase (some p),
             heap := s.heap.set p { e with inLru := false } }
  else s

/-- spdy4_headers_codec.cc 401-417, RemoveFromValMap. -/
def removeFromValMap (s : Codec) (p : Nat) (e : CEntry) : Py Codec := do
  let size ← subSize s.stateSize e.val.length
  let k ← keyAt s e.key
  let n ← subSize s.numVals 1
  .ok { s with stateSize := size, numVals := n,
               keymap := s.keymap.set e.key { k with vals := k.vals.erase (e.val, p) } }

/-- spdy4_headers_codec.cc 419-436, MaybeRemoveFromKeyMap. -/
def maybeRemoveKey (s : Codec) (e : CEntry) : Py Codec := do
  let k ← keyAt s e.key
  if k.vals = [] ∧ k.refcnt = 0 then do
    let size ← subSize s.stateSize e.key.length
    .ok { s with keyIds := s.keyIds.done k.idx, stateSize := size, keymap := s.keymap.del e.key }
  else .ok s

/-- spdy4_headers_codec.cc 438-442, RemoveVal. -/
def removeVal (s : Codec) (p : Nat) : Py Codec := do
  let e ← entryAt s p
  let s := removeFromLru s p e
  let s ← removeFromValMap s p e
  maybeRemoveKey s e

/-- spdy4_headers_codec.cc 579-585, RemoveValEntry. -/
def removeFromGroups (s : Codec) (p : Nat) : Codec :=
  { s with groups := s.groups.map fun g => (g.1, g.2.del p) }

/-- spdy4_headers_codec.cc 274-297, PopOne. -/
def popOne (s : Codec) : Py (Bool × Codec) :=
  match s.lru with
  | [] => .error .assertion
  | none :: _ => .ok (false, s)
  | some p :: _ => do
    let s ← removeVal (removeFromGroups s p) p
    .ok (true, { s with heap := s.heap.del p })

/-- spdy4_headers_codec.cc 300-306 and 307-314: one of the loops of MakeSpace, while `full` holds.  The
result says whether the loop ended by itself.  Every round removes an element of the list. -/
def popWhile (full : Codec → Bool) : Nat → Codec → Py (Bool × Codec)
  | 0, _ => .error .outOfFuel
  | n + 1, s =>
    if full s then do
      let (go, s) ← popOne s
      if go then popWhile full n s else .ok (false, s)
    else .ok (true, s)

/-- spdy4_headers_codec.cc 299-315, MakeSpace. -/
def makeSpace (s : Codec) (space adding : Nat) : Py Codec := do
  let (go, s) ← popWhile (fun s => decide (s.numVals + adding > s.maxVals)) (s.lru.length + 1) s
  if go then do
    let (_, s) ← popWhile (fun s => decide (s.stateSize + space > s.maxState)) (s.lru.length + 1) s
    .ok s
  else .ok s

/-- spdy4_headers_codec.cc 266-272, UnPinLRUEnd. -/
def unPinLruEnd (s : Codec) : Py Codec :=
  if ¬ s.pinned then .ok s
  else do
    let s ← makeSpace s 0 0
    .ok { s with lru := s.lru.erase none, pinned := false }

/-- spdy4_headers_codec.cc 328-339, FindOrAddKey, with an empty LookupCache. -/
def findOrAddKey (s : Codec) (key : Str) : Py Codec :=
  if s.keymap.has key then .ok s
  else do
    let s ← makeSpace s key.length 0
    let (i, ids) := s.keyIds.getNext
    .ok { s with keyIds := ids, keymap := s.keymap.set key { idx := i, refcnt := 0, vals := [] },
                 stateSize := s.stateSize + key.length }

/-- spdy4_headers_codec.cc 163-165, IncRefcnt of the key entry `key`. -/
def incRef (s : Codec) (key : Str) : Py Codec := do
  let k ← keyAt s key
  .ok { s with keymap := s.keymap.set key { k with refcnt := k.refcnt + 1 } }

/-- spdy4_headers_codec.cc 167-170, DecRefcnt. -/
def decRef (s : Codec) (key : Str) : Py Codec := do
  let k ← keyAt s key
  if k.refcnt = 0 then .error .assertion
  else .ok { s with keymap := s.keymap.set key { k with refcnt := k.refcnt - 1 } }

/-- spdy4_headers_codec.cc 341-361, InsertVal, for the key entry `key`.  (Line 348 decrements without a
test, but the count cannot be 0 there.) -/
def insertVal (s : Codec) (key val : Str) : Py (Nat × Codec) := do
  let s ← incRef s key
  let p := s.nextPtr
  let s ← makeSpace { s with nextPtr := p + 1 } val.length 1
  let s ← decRef s key
  let k ← keyAt s key
  .ok (p, { s with keymap := s.keymap.set key { k with vals := k.vals ++ [(val, p)] },
                   numVals := s.numVals + 1, stateSize := s.stateSize + val.length,
                   heap := s.heap.set p { key := key, val := val, lruIdx := 0, inLru := false } })

/-- spdy4_headers_codec.cc 363-370, AddToHeadOfLRU. -/
def addToHead (s : Codec) (p : Nat) : Py Codec := do
  let e ← entryAt s p
  if e.inLru then .error .assertion
  else
    let (i, ids) := s.lruIds.getNext
    .ok { s with lru := s.lru ++ [some p], lruIds := ids,
                 heap := s.heap.set p { e with lruIdx := i, inLru := true } }

/-- spdy4_headers_codec.cc 372-382, MoveToHeadOfLRU. -/
def moveToHead (s : Codec) (p : Nat) : Py Codec := do
  let e ← entryAt s p
  if e.inLru then .ok { s with lru := s.lru.erase (some p) ++ [some p] } else .ok s

/-- `header_groups[g]`, empty if there is none. -/
def groupOf (s : Codec) (g : Nat) : Dict Nat Nat := (s.groups.get? g).getD []

/-- spdy4_headers_codec.cc 882-903, SetHeaderGroupEntry with `should_be_visible`. -/
def showEntry (s : Codec) (g p : Nat) : Codec :=
  if (groupOf s g).has p then s
  else { s with groups := s.groups.set g ((groupOf s g).set p s.frameCount) }

/-- spdy4_headers_codec.cc 905-914, AddLine. -/
def addLine (s : Codec) (g : Nat) (key val : Str) : Py Codec := do
  let (p, s) ← insertVal s key val
  if g > 0 then do
    let s ← addToHead s p
    .ok (showEntry s g p)
  else .ok s

/-- spdy4_headers_codec.cc 916-925, ExecuteKVSto. -/
def executeKVSto (s : Codec) (g : Nat) (key val : Str) : Py Codec := do
  let s ← findOrAddKey s key
  addLine s g key val

/-- spdy4_headers_codec.cc 857-879 and 933-944, ExecuteToggle. -/
def executeToggle (s : Codec) (g p : Nat) : Py Codec :=
  if (groupOf s g).has p then .ok { s with groups := s.groups.set g ((groupOf s g).del p) }
  else moveToHead { s with groups := s.groups.set g ((groupOf s g).set p s.frameCount) } p

/-- spdy4_headers_codec.cc 835-840, the first loop of ExecuteClones. -/
def incRefs (s : Codec) : List (Str × Str) → Py Codec
  | [] => .ok s
  | c :: cs => do
    let s ← incRef s c.1
    incRefs s cs

/-- spdy4_headers_codec.cc 841-854, the second loop of ExecuteClones, with ExecuteClone. -/
def cloneLoop (s : Codec) (g : Nat) : List (Str × Str) → Py Codec
  | [] => .ok s
  | c :: cs => do
    let s ← addLine s g c.1 c.2
    let s ← decRef s c.1
    cloneLoop s g cs

/-- spdy4_headers_codec.cc 532-551, Instructions.  A clone is the key its iterator points to and the
value. -/
structure CInstrs where
  ons : List Nat
  offs : List Nat
  clones : List (Str × Str)
  kvstos : List (Str × Str)
  deriving DecidableEq, Repr

/-- spdy4_headers_codec.cc 624-633: toggles in turn. -/
def toggles (s : Codec) (g : Nat) : List Nat → Py Codec
  | [] => .ok s
  | p :: ps => do
    let s ← executeToggle s g p
    toggles s g ps

/-- spdy4_headers_codec.cc 635-639: KVStos in turn. -/
def kvstoLoop (s : Codec) (g : Nat) : List (Str × Str) → Py Codec
  | [] => .ok s
  | c :: cs => do
    let s ← executeKVSto s g c.1 c.2
    kvstoLoop s g cs

/-- spdy4_headers_codec.cc 622-641, ExecuteInstructionsExceptERefs. -/
def executeAll (s : Codec) (g : Nat) (i : CInstrs) : Py Codec := do
  let s ← toggles s g i.ons
  let s ← toggles s g i.offs
  let s ← incRefs s i.clones
  let s ← cloneLoop s g i.clones
  kvstoLoop s g i.kvstos

/-- spdy4_headers_codec.cc 587-620, ProcessKV; `has` says whether the LookupCache has the key. -/
def processKV (s : Codec) (g : Nat) (has : Bool) (key val : Str) (i : CInstrs) : Py (Codec × CInstrs) :=
  if has || s.keymap.has key then do
    let k ← keyAt s key
    match k.vals.find? (fun v => v.1 = val) with
    | some (_, p) =>
      if (groupOf s g).has p then do
        let s ← moveToHead { s with groups := s.groups.set g ((groupOf s g).set p s.frameCount) } p
        .ok (s, i)
      else .ok (s, { i with ons := i.ons ++ [p] })
    | none => .ok (s, { i with clones := i.clones ++ [(key, val)] })
  else .ok (s, { i with kvstos := i.kvstos ++ [(key, val)] })

/-- spdy4_headers_codec.cc 744-757: the crumbs of a cookie.  The argument is what is left of the value
from `crumb_begin`; the loop ends when nothing is left. -/
def crumbs (fuel : Nat) (s : Str) : Py (List Str) :=
  match fuel with
  | 0 => .error .outOfFuel
  | n + 1 =>
    if s = [] then .ok []
    else if 59 ∈ s then do
      let rest ← crumbs n (((s.dropWhile (· ≠ 59)).drop 1).dropWhile (· = 32))
      .ok (s.takeWhile (· ≠ 59) :: rest)
    else .ok [s]

/-- spdy4_headers_codec.cc 741-760: the lines made of one header. -/
def linesOf (kv : Str × Str) : Py (List (Str × Str)) :=
  if kv.1 = b!"cookie" ∧ 59 ∈ kv.2 then do
    let cs ← crumbs (kv.2.length + 1) kv.2
    .ok (cs.map fun c => (kv.1, c))
  else .ok [kv]

/-- spdy4_headers_codec.cc 748-760: ProcessKV for each line. -/
def processLines (s : Codec) (g : Nat) (has : Bool) : List (Str × Str) → CInstrs → Py (Codec × CInstrs)
  | [], i => .ok (s, i)
  | kv :: kvs, i => do
    let (s, i) ← processKV s g has kv.1 kv.2 i
    processLines s g has kvs i

/-- spdy4_headers_codec.cc 733-761: the loop over the headers, each with its LookupCache. -/
def processHeaders (s : Codec) (g : Nat) : List ((Str × Str) × Bool) → CInstrs → Py (Codec × CInstrs)
  | [], i => .ok (s, i)
  | h :: hs, i => do
    let lines ← linesOf h.1
    let (s, i) ← processLines s g h.2 lines i
    processHeaders s g hs i

/-- spdy4_headers_codec.cc 720-731: the LookupCaches of the headers; the counts of the keys found are
incremented. -/
def lookupKeys (s : Codec) : List (Str × Str) → Py (Codec × List ((Str × Str) × Bool))
  | [] => .ok (s, [])
  | h :: hs => do
    if s.keymap.has h.1 then do
      let s ← incRef s h.1
      let (s, l) ← lookupKeys s hs
      .ok (s, (h, true) :: l)
    else do
      let (s, l) ← lookupKeys s hs
      .ok (s, (h, false) :: l)

/-- spdy4_headers_codec.cc 773-782: the counts are decremented. -/
def releaseKeys (s : Codec) : List ((Str × Str) × Bool) → Py Codec
  | [] => .ok s
  | h :: hs =>
    if h.2 then do
      let s ← decRef s h.1.1
      releaseKeys s hs
    else releaseKeys s hs

/-- spdy4_headers_codec.cc 824-833, DiscoverTurnOffs; `order` is the order of the addresses. -/
def turnOffs (order : List Nat → List Nat) (s : Codec) (g : Nat) : List Nat :=
  order (((groupOf s g).filter fun x => x.2 ≠ s.frameCount).map (·.1))

/-- spdy4_headers_codec.cc 673-782: ProcessFrame up to the serialization. -/
def beforeWriting (order : List Nat → List Nat) (s : Codec) (g : Nat) (headers : List (Str × Str)) :
    Py (Codec × CInstrs) := do
  let s := pinLruEnd s
  let s := if s.groups.has g then s else { s with groups := s.groups.set g [] }
  let (s, l) ← lookupKeys s headers
  let (s, i) ← processHeaders s g l { ons := [], offs := [], clones := [], kvstos := [] }
  let i := { i with offs := i.offs ++ turnOffs order s g }
  let s ← executeAll s g i
  let s ← releaseKeys s l
  .ok (s, i)

/-! ### InlineSerialization -/

/-- The indices of toggles: `ToggleOp::idx`, spdy4_headers_codec.cc 526. -/
def toggleIdxs (s : Codec) : List Nat → Py (List Nat)
  | [] => .ok []
  | p :: ps => do
    let e ← entryAt s p
    let r ← toggleIdxs s ps
    .ok (e.lruIdx :: r)

/-- Insertion into a sorted list. -/
def insertLe (x : Nat) : List Nat → List Nat
  | [] => [x]
  | y :: l => if x ≤ y then x :: y :: l else y :: insertLe x l

/-- spdy4_headers_codec.cc 1005-1006, the calls of `sort`. -/
def sortIdx (l : List Nat) : List Nat := l.foldr insertLe []

/-- spdy4_headers_codec.cc 1011-1031: which index is next. -/
def mergeIdx : List Nat → List Nat → List Nat
  | [], ys => ys
  | xs, [] => xs
  | x :: xs, y :: ys => if x < y then x :: mergeIdx xs (y :: ys) else y :: mergeIdx (x :: xs) ys
  termination_by xs ys => xs.length + ys.length

/-- spdy4_headers_codec.cc 1033-1044: what is done with one index; `ot` and `otr` are the vectors. -/
def addIdx (idx : Nat) (ot : List Nat) (otr : List (Nat × Nat)) : Py (List Nat × List (Nat × Nat)) :=
  match ot.getLast? with
  | some l =>
    if idx = l + 1 then
      match ot.dropLast.getLast? with
      | none => .error .index
      | some l' => .ok (ot.dropLast, otr ++ [(l', idx)])
    else
      match otr.getLast? with
      | some r => if idx = r.2 + 1 then .ok (ot, otr.dropLast ++ [(r.1, idx)]) else .ok (ot, otr)
      | none => .ok (ot, otr)
  | none =>
    match otr.getLast? with
    | some r => if idx = r.2 + 1 then .ok (ot, otr.dropLast ++ [(r.1, idx)]) else .ok (ot, otr)
    | none => .ok (ot, otr)

/-- spdy4_headers_codec.cc 1011-1045: the loop. -/
def addIdxs : List Nat → List Nat → List (Nat × Nat) → Py (List Nat × List (Nat × Nat))
  | [], ot, otr => .ok (ot, otr)
  | i :: is, ot, otr => do
    let (ot, otr) ← addIdx i ot otr
    addIdxs is ot otr

/-- spdy4_headers_codec.cc 1002-1046, PreProcessToggles. -/
def preProcessToggles (s : Codec) (i : CInstrs) : Py (List Nat × List (Nat × Nat)) := do
  let ons ← toggleIdxs s i.ons
  let offs ← toggleIdxs s i.offs
  addIdxs (mergeIdx (sortIdx ons) (sortIdx offs)) [] []

/-- spdy4_headers_codec.cc 1142-1144, the inner loop of OutputOps. -/
def writeAll {α : Type} (w : BB → α → Py BB) (b : BB) : List α → Py BB
  | [] => .ok b
  | x :: xs => do
    let b ← w b x
    writeAll w b xs

/-- spdy4_headers_codec.cc 1119-1147, OutputOps. -/
def outputOps {α : Type} (opcode : Nat) (w : BB → α → Py BB) : Nat → BB → List α → Py BB
  | 0, _, _ => .error .outOfFuel
  | n + 1, b, ops =>
    if ops = [] then .ok b
    else do
      let b := storeByteAlignedUint8 b opcode
      let b := storeByteAlignedUint8 b (min ops.length 255)
      let b ← writeAll w b (ops.take 255)
      outputOps opcode w n b (ops.drop 255)

/-- spdy4_headers_codec.cc 1048-1054 and 1095-1101, CloneWriter; the key index is read when it is
written. -/
def writeClone (h : Coder) (s : Codec) (b : BB) (c : Str × Str) : Py BB := do
  let k ← keyAt s c.1
  encodeC h (storeByteAlignedUint16 b k.idx) c.2 true

/-- spdy4_headers_codec.cc 1103-1109, KVStoWriter. -/
def writeKVSto (h : Coder) (b : BB) (c : Str × Str) : Py BB := do
  let b ← encodeC h b c.1 true
  encodeC h b c.2 true

/-- spdy4_headers_codec.cc 1208-1217, WriteControlFrameStreamId. -/
def writeStreamId (b : BB) (streamId : Nat) : Py BB :=
  if streamId / 32768 % 2 = 1 then .error .assertion
  else .ok (storeByteAlignedUint32 b (streamId ||| 32768))

/-- spdy4_headers_codec.cc 1190-1206, WriteControlFrameBoilerplate. -/
def writeBoilerplate (b : BB) (len flags streamId type : Nat) : Py BB := do
  let b := storeByteAlignedUint16 b len
  let b := storeByteAlignedUint8 b flags
  let b ← writeStreamId b streamId
  .ok (storeByteAlignedUint8 b type)

/-- Writers of toggles, spdy4_headers_codec.cc 1080-1093. -/
def writeToggle (b : BB) (i : Nat) : Py BB := .ok (storeByteAlignedUint16 b i)
def writeRange (b : BB) (r : Nat × Nat) : Py BB :=
  .ok (storeByteAlignedUint16 (storeByteAlignedUint16 b r.1) r.2)

/-- spdy4_headers_codec.cc 1149-1176, SerializeInstructions; the opcodes are those of line 472. -/
def serialize (h : Coder) (s : Codec) (i : CInstrs) (b : BB) (streamId : Nat) (ends : Bool) : Py BB := do
  let (ot, otr) ← preProcessToggles s i
  let b ← writeBoilerplate b 0 (if ends then 1 else 0) streamId 8
  let b ← outputOps 2 writeToggle (ot.length + 1) b ot
  let b ← outputOps 3 writeRange (otr.length + 1) b otr
  let b ← outputOps 0 (writeClone h s) (i.clones.length + 1) b i.clones
  outputOps 1 (writeKVSto h) (i.kvstos.length + 1) b i.kvstos

/-- spdy4_headers_codec.cc 673-806, ProcessFrame. -/
def processFrame (h : Coder) (order : List Nat → List Nat) (s : Codec) (b : BB) (streamId g : Nat)
    (headers : List (Str × Str)) (ends : Bool) : Py (BB × Codec) := do
  let (s, i) ← beforeWriting order s g headers
  let b ← serialize h s i b streamId ends
  let s := { s with frameCount := s.frameCount + 1 }
  let s ← unPinLruEnd s
  .ok (b, s)

/-- spdy4_headers_codec.cc 446-456, the Storage constructor. -/
def Codec.empty : Codec :=
  { keyIds := ⟨[], 0⟩, lruIds := ⟨[], 0⟩, stateSize := 0, maxState := 65536, numVals := 0, maxVals := 1024,
    keymap := [([], { idx := 0, refcnt := 0, vals := [] })], lru := [], pinned := false, heap := [],
    nextPtr := 0, groups := [], frameCount := 0 }

/-- spdy4_headers_codec.cc 1223-1234: the constructor stores the default headers. -/
def Codec.start (defaults : List (Str × Str)) : Py Codec := kvstoLoop Codec.empty 0 defaults

/-- spdy4_headers_codec.cc 47-112, spdy4_default_dict. -/
def defaultHeaders : List (Str × Str) :=
  [(b!":host", []), (b!":method", b!"get"), (b!":path", b!"/"), (b!":scheme", b!"https"),
   (b!":status", b!"200"), (b!":status-text", b!"OK"), (b!":version", b!"1.1")] ++
  [b!"accept", b!"accept-charset", b!"accept-encoding", b!"accept-language", b!"accept-ranges", b!"allow",
   b!"authorizations", b!"cache-control", b!"content-base", b!"content-encoding", b!"content-length",
   b!"content-location", b!"content-md5", b!"content-range", b!"content-type", b!"cookie", b!"date", b!"etag",
   b!"expect", b!"expires", b!"from", b!"if-match", b!"if-modified-since", b!"if-none-match", b!"if-range",
   b!"if-unmodified-since", b!"last-modified", b!"location", b!"max-forwards", b!"origin", b!"pragma",
   b!"proxy-authenticate", b!"proxy-authorization", b!"range", b!"referer", b!"retry-after", b!"server",
   b!"set-cookie", b!"status", b!"te", b!"trailer", b!"transfer-encoding", b!"upgrade", b!"user-agent",
   b!"user-agent", b!"vary", b!"via", b!"warning", b!"www-authenticate", b!"access-control-allow-origin",
   b!"content-disposition", b!"get-dictionary", b!"p3p", b!"x-content-type-options", b!"x-frame-options",
   b!"x-powered-by", b!"x-xss-protection"].map fun k => (k, [])

/-- spdy4_headers_codec.cc 1294-1296 and 954-956, SetMaxStateSize. -/
def setMaxStateSize (s : Codec) (n : Nat) : Codec := { s with maxState := n }

/-- spdy4_headers_codec.cc 1298-1300, SetMaxVals of the public class. -/
def setMaxVals (s : Codec) (n : Nat) : Codec := setMaxStateSize s n

end Verif.Cpp
