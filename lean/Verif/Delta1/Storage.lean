import Verif.Delta2.Codec
/-
Model of the classes LRU (as a queue), Storage and HeaderGroup, compressor/delta/spdy4_codec_impl.py 556-815, and
IDStore, compressor/delta/common_utils.py 55-78.

* The entries of `lru`, those of `lru_idx_to_ve` that are not from the constructor, and those of the `val_map`s that are not
  from the constructor are the same ones; one list (`lru`, the oldest entry first) stands for the three.  An entry is
  found by its `lru_idx`.  That the linked list of the class LRU is a queue is a theorem of its own (C69).
* The entries the constructor makes (lines 664-671) have the key and the value that the last iteration of
  the loop at line 310 left in the global variables `key` and `val`: the name of an opcode and a tuple.  Which one, depends on
  the order of the dictionary `opcodes`; the name is a parameter.  A tuple is different from all strings, so these entries are
  never found by their value; only their indices matter (`statics`), and the index of their key.
* A set of integers is an ascending list.  The set `groups` of an entry is given by what happened to it (`hist`), and the order
  in which it is iterated may depend on all of this.
* `DoneWithId` is never called, so the set `ids` of an IDStore is always empty.
-/
namespace Verif.Delta1
open Verif Verif.Delta2

/-! ### IDStore -/

/-- common_utils.py 57-64. -/
structure IdSt where
  next : Nat := 0
  minId : Nat := 0
  maxId : Nat
  deriving DecidableEq, Repr

/-- common_utils.py 66-74, GetNext. -/
def getNext (s : IdSt) : IdSt × Nat :=
  let n := s.next + 1
  let n := if s.maxId ≠ 0 ∧ n ≥ s.maxId then s.minId else n
  ({ s with next := n }, n)

/-- The loop spdy4_codec_impl.py 748-755; `used` is `in mapdata`. -/
def unusedLoop (used : Nat → Bool) (first : Nat) : Nat → IdSt → Nat → Py (IdSt × Nat)
  | 0, _, _ => .error .outOfFuel
  | fuel + 1, s, idx =>
    if used idx then
      let r := getNext s
      if r.2 = first then .error .standard else unusedLoop used first fuel r.1 r.2
    else .ok (s, idx)

/-- spdy4_codec_impl.py 745-756, GetNextUnusedId.  Without repetition there are at most `maxId` many ids. -/
def nextUnused (used : Nat → Bool) (s : IdSt) : Py (IdSt × Nat) :=
  let r := getNext s
  unusedLoop used r.2 (s.maxId + 1) r.1 r.2

/-! ### Storage -/

/-- What can happen to the set of an entry's groups. -/
inductive GEvent where
  | add (g : Nat)
  | remove (g : Nat)
  | clear
  deriving DecidableEq, Repr

/-- One change of a set of groups. -/
def groupStep (s : List Nat) : GEvent → List Nat
  | .add g => addSet s g
  | .remove g => s.filter (· ≠ g)
  | .clear => []

/-- The set of groups after the events. -/
def groupsOf (hist : List GEvent) : List Nat := hist.foldl groupStep []

/-- spdy4_codec_impl.py 632-638, VE, with an index; `ke` is the key entry of the same name. -/
structure VE where
  idx : Nat
  key : Str
  val : Str
  hist : List GEvent := []
  deriving DecidableEq, Repr

/-- spdy4_codec_impl.py 618-623, KE; for `val_map` see above. -/
structure KE where
  idx : Nat
  refCnt : Int := 0
  deriving DecidableEq, Repr

/-- spdy4_codec_impl.py 649-662. -/
structure Store where
  staticKey : Str
  statics : List Nat := []
  keyMap : Dict Str KE := []
  keyIdx : Dict Nat Str := []
  keyIds : IdSt := { maxId := 2 ^ 16 }
  lruIds : IdSt := { maxId := 2 ^ 16 }
  lru : List VE := []
  stateSize : Int := 0
  numVals : Int := 0
  maxVals : Int
  maxSize : Int
  deriving DecidableEq, Repr

/-- `idx in self.lru_idx_to_ve`. -/
def Store.used (s : Store) (i : Nat) : Bool := decide (i ∈ s.statics) || s.lru.any (·.idx = i)

/-- spdy4_codec_impl.py 708-710, NewKE; `key_map[key]` is set by the caller.  Key ids are looked up in `key_idx_to_ke`. -/
def newKE (s : Store) (key : Str) : Py (Store × Nat) := do
  let (ids, i) ← nextUnused (fun i => s.keyIdx.has i) s.keyIds
  pure ({ s with keyIds := ids, keyMap := s.keyMap.set key { idx := i } }, i)

/-- spdy4_codec_impl.py 665-671, one iteration; the key entry is not put into `key_idx_to_ke`. -/
def staticStep (s : Store) : Py Store := do
  let s ← if s.keyMap.has s.staticKey then .ok s else (newKE s s.staticKey).map (·.1)
  let (ids, i) ← nextUnused s.used s.lruIds
  pure { s with lruIds := { ids with minId := i }, statics := s.statics ++ [i] }

/-- The loop spdy4_codec_impl.py 664-671. -/
def staticLoop : Nat → Store → Py Store
  | 0, s => .ok s
  | n + 1, s => do
    let s ← staticStep s
    staticLoop n s

/-- spdy4_codec_impl.py 649-671; `g_default_kvs` has the 65 entries of delta2's table. -/
def Store.init (staticKey : Str) (maxBytes maxEntries : Int) : Py Store :=
  staticLoop defaultKvs.length { staticKey := staticKey, maxVals := maxEntries, maxSize := maxBytes }

/-- spdy4_codec_impl.py 768-769, LookupFromIdx, where an entry is needed: `None` has no attributes.  What is asked of
an entry from the constructor is not modelled. -/
def lookup (s : Store) (i : Nat) : Py VE :=
  match s.lru.find? (·.idx = i) with
  | some ve => .ok ve
  | none => if i ∈ s.statics then .error .notImpl else .error .attribute

/-- Changing the entry with the given index. -/
def Store.update (s : Store) (i : Nat) (f : VE → VE) : Store :=
  { s with lru := s.lru.map fun ve => if ve.idx = i then f ve else ve }

/-- spdy4_codec_impl.py 702-706, IncrementRefCnt and DecrementRefCnt. -/
def refCnt (s : Store) (key : Str) (by_ : Int) : Store :=
  match s.keyMap.get? key with
  | some ke => { s with keyMap := s.keyMap.set key { ke with refCnt := ke.refCnt + by_ } }
  | none => s

/-- spdy4_codec_impl.py 789-792, MaybeRemoveFromKeyMap: the condition `len(ke.val_map) > 0 or ke.ref_cnt > 0`. -/
def Store.keyNeeded (s : Store) (key : Str) : Bool :=
  s.lru.any (·.key = key) || (decide (key = s.staticKey) && !s.statics.isEmpty) ||
    match s.keyMap.get? key with
    | some ke => decide (ke.refCnt > 0)
    | none => false

/-- spdy4_codec_impl.py 778-797, RemoveVal of the first entry `ve` of the queue, of which `rest` remains. -/
def removeVal (s : Store) (ve : VE) (rest : List VE) : Store :=
  let s := { s with lru := rest, stateSize := s.stateSize - ve.val.length, numVals := s.numVals - 1 }
  if s.keyNeeded ve.key then s else { s with stateSize := s.stateSize - ve.key.length }

/-! ### Sets of indices -/

/-- `s.add(i)`. -/
def insertAsc (i : Nat) : List Nat → List Nat
  | [] => [i]
  | x :: xs => if i < x then i :: x :: xs else if i = x then x :: xs else x :: insertAsc i xs

/-- spdy4_codec_impl.py 571-572, Toggle. -/
def toggleAsc (s : List Nat) (i : Nat) : List Nat := if i ∈ s then s.filter (· ≠ i) else insertAsc i s

/-- spdy4_codec_impl.py 565-569, RemoveEntry. -/
def removeAsc (s : List Nat) (i : Nat) : List Nat := s.filter (· ≠ i)

end Verif.Delta1
