import Verif.Py
/-
Model of compressor/delta2/lrustorage.py and of the class Storage of
compressor/delta2/spdy4_codec_impl.py (lines 20-86, 693-774).

* A RefCntString shares a cell `[string, count]` with others.  The string in a cell never changes, so a
  KV carries its strings and the addresses of the cells; the counts are kept in a list.
* `done` is called once per object at most, when it leaves the ring, so `decr` (which makes a second
  call harmless) is left out.
* The hashes of FindKeyValEntries only avoid comparisons of strings: equal strings have equal hashes.
* The callback `pop_cb` does not look at the storage, so the model returns the removed entries, for
  which the caller then runs the callback.
-/
namespace Verif.Delta2
open Verif

/-! ### Reference-counted strings -/

/-- The counts of all cells; the address of a cell is its position. -/
abbrev Counts := List Int

/-- lrustorage.py 36-41: a KV; `kcell` and `vcell` are the addresses of the cells. -/
structure KV where
  key : Str
  kcell : Nat
  val : Str
  vcell : Nat
  deriving DecidableEq, Repr

/-- lrustorage.py 5-8: RefCntString of a plain string. -/
def newCell (c : Counts) : Counts × Nat := (c ++ [1], c.length)

/-- lrustorage.py 9-11: RefCntString of another one. -/
def shareCell (c : Counts) (a : Nat) : Counts := c.modify a (· + 1)

/-- lrustorage.py 16-18, done. -/
def dropCell (c : Counts) (a : Nat) : Counts := c.modify a (· - 1)

/-- lrustorage.py 26-29, `len`. -/
def cellLen (c : Counts) (a : Nat) (s : Str) : Int := if c.getD a 0 > 1 then 0 else s.length

/-- lrustorage.py 53-54, ByteSize. -/
def KV.byteSize (c : Counts) (kv : KV) : Int := cellLen c kv.vcell kv.val + cellLen c kv.kcell kv.key

/-- lrustorage.py 43-45, done. -/
def KV.done (c : Counts) (kv : KV) : Counts := dropCell (dropCell c kv.kcell) kv.vcell

/-- `KV(key, val)` with two plain strings. -/
def kvNew (c : Counts) (key val : Str) : Counts × KV :=
  let (c, k) := newCell c
  let (c, v) := newCell c
  (c, { key := key, kcell := k, val := val, vcell := v })

/-- `KV(kv.key_, val)` with a plain string as value. -/
def kvShareKey (c : Counts) (kv : KV) (val : Str) : Counts × KV :=
  let c := shareCell c kv.kcell
  let (c, v) := newCell c
  (c, { key := kv.key, kcell := kv.kcell, val := val, vcell := v })

/-- `KV(kv.key_, kv.val_)`. -/
def kvShare (c : Counts) (kv : KV) : Counts × KV :=
  (shareCell (shareCell c kv.kcell) kv.vcell, kv)

/-! ### LruStorage -/

/-- A KV in the ring, with its `seq_num`. -/
structure Entry where
  kv : KV
  seq : Int
  deriving DecidableEq, Repr

/-- lrustorage.py 61-73. -/
structure Lru where
  ring : List Entry := []
  byteSize : Int := 0
  maxItems : Option Int := none
  maxBytes : Option Int := none
  maxSeq : Option Int := none
  offset : Nat := 0
  seqNum : Int := offset
  deriving DecidableEq, Repr

/-- Indexing a deque; negative indices count from the end. -/
def pyIndex {α : Type} (l : List α) (i : Int) : Py α :=
  let j := if i < 0 then i + l.length else i
  if j < 0 then .error .index
  else match l[j.toNat]? with
    | some x => .ok x
    | none => .error .index

/-- lrustorage.py 91-100, PopOne; `none` if it returns 0. -/
def popOne (c : Counts) (s : Lru) : Option (Counts × Lru × Entry) :=
  match s.ring with
  | [] => none
  | item :: rest =>
    let s := { s with ring := rest, byteSize := s.byteSize - item.kv.byteSize c }
    some (item.kv.done c, s, item)

/-- What Reserve leaves: the counts, the storage, the removed entries in order, and the returned
value. -/
structure Reserved where
  counts : Counts
  lru : Lru
  popped : List Entry
  ok : Bool
  deriving DecidableEq, Repr

/-- The loops lrustorage.py 82-84 and 86-88: while `cond`, pop one or return 0.  The number is the length
of the ring; at 0 there is nothing to pop. -/
def popWhile (cond : Counts → Lru → Bool) : Nat → Counts → Lru → List Entry → Reserved
  | 0, c, s, popped => { counts := c, lru := s, popped := popped, ok := !cond c s }
  | n + 1, c, s, popped =>
    if cond c s then
      match popOne c s with
      | none => { counts := c, lru := s, popped := popped, ok := false }
      | some (c, s, item) => popWhile cond n c s (popped ++ [item])
    else { counts := c, lru := s, popped := popped, ok := true }

/-- lrustorage.py 81-84: room for the items. -/
def reserveItems (itemCount : Int) (c : Counts) (s : Lru) : Reserved :=
  match s.maxItems with
  | none => { counts := c, lru := s, popped := [], ok := true }
  | some m => popWhile (fun _ s => decide ((s.ring.length : Int) + itemCount > m)) s.ring.length c s []

/-- lrustorage.py 85-88: room for the bytes. -/
def reserveBytes (kv : KV) (c : Counts) (s : Lru) (popped : List Entry) : Reserved :=
  match s.maxBytes with
  | none => { counts := c, lru := s, popped := popped, ok := true }
  | some m => popWhile (fun c s => decide (s.byteSize + kv.byteSize c > m)) s.ring.length c s popped

/-- lrustorage.py 78-89, Reserve. -/
def reserve (kv : KV) (itemCount : Int) (c : Counts) (s : Lru) : Reserved :=
  if s.maxItems = some 0 ∨ s.maxBytes = some 0 then { counts := c, lru := s, popped := [], ok := false }
  else
    let r := reserveItems itemCount c s
    if r.ok then reserveBytes kv r.counts r.lru r.popped else r

/-- lrustorage.py 104: are there too many bytes? -/
def tooManyBytes (s : Lru) (size : Int) : Bool :=
  match s.maxBytes with
  | none => false
  | some m => decide (s.byteSize + size > m)

/-- lrustorage.py 111: are there too many items? -/
def tooManyItems (s : Lru) : Bool :=
  match s.maxItems with
  | none => false
  | some m => decide (m ≠ 0 ∧ m < s.ring.length + 1)

/-- lrustorage.py 114-116: the number after `n`. -/
def nextSeq (s : Lru) (n : Int) : Int :=
  match s.maxSeq with
  | none => n + 1
  | some m => if n + 1 ≥ m then s.offset else n + 1

/-- lrustorage.py 102-118, Store. -/
def Lru.store (c : Counts) (s : Lru) (kv : KV) : Py Lru :=
  let size := kv.byteSize c
  if tooManyBytes s size then .error .memory
  else if tooManyItems s then .error .memory
  else .ok { s with
    ring := s.ring ++ [{ kv := kv, seq := s.seqNum }], byteSize := s.byteSize + size,
    seqNum := nextSeq s s.seqNum }

/-- lrustorage.py 120-138, SeqNumToIdxFromLeft. -/
def seqNumToIdx (s : Lru) (seqNum : Int) : Py Int :=
  match s.ring with
  | [] => .error .index
  | e :: _ =>
    if seqNum < s.offset then .error .index
    else if e.seq > seqNum then
      match s.maxSeq with
      | none => .error .index
      | some m => if m = 0 then .error .index else .ok (m - e.seq + (seqNum - s.offset))
    else .ok (seqNum - e.seq)

/-- lrustorage.py 140-160, Lookup. -/
def lookup (s : Lru) (seqNum : Int) : Py Entry := do
  let i ← seqNumToIdx s seqNum
  let e ← pyIndex s.ring i
  if e.seq ≠ seqNum then .error .standard else pure e

/-- lrustorage.py 172-176: the inner loop, over the entries before `ke`, the last one first. -/
def findVal (key val : Str) (ke : Entry) : List Entry → Option Int × Option Int
  | [] => (some ke.seq, none)
  | e :: es => if e.kv.key = key ∧ e.kv.val = val then (some e.seq, some e.seq) else findVal key val ke es

/-- lrustorage.py 166-177: the outer loop, over the entries, the last one first. -/
def findKeyVal (key val : Str) : List Entry → Option Int × Option Int
  | [] => (none, none)
  | e :: es =>
    if e.kv.key = key then
      if e.kv.val = val then (some e.seq, some e.seq) else findVal key val e es
    else findKeyVal key val es

/-- lrustorage.py 162-177, FindKeyValEntries. -/
def findKeyValEntries (s : Lru) (key val : Str) : Option Int × Option Int := findKeyVal key val s.ring.reverse

/-! ### Storage -/

/-- `g_default_kvs`, spdy4_codec_impl.py 20-86. -/
def defaultKvs : List Hdr := [
  (b!":scheme", b!"http"),
  (b!"connection", b!"keep-alive"),
  (b!"x-xss-protection", b!""),
  (b!"x-powered-by", b!""),
  (b!"x-frame-options", b!""),
  (b!"x-content-type-options", b!""),
  (b!"p3p", b!""),
  (b!"get-dictionary", b!""),
  (b!"content-disposition", b!""),
  (b!"access-control-allow-origin", b!""),
  (b!"www-authenticate", b!""),
  (b!"warning", b!""),
  (b!"via", b!""),
  (b!"vary", b!""),
  (b!"user-agent", b!""),
  (b!"upgrade", b!""),
  (b!"transfer-encoding", b!""),
  (b!"trailer", b!""),
  (b!"te", b!""),
  (b!"status", b!""),
  (b!"set-cookie", b!""),
  (b!"server", b!""),
  (b!"retry-after", b!""),
  (b!"referer", b!""),
  (b!"range", b!""),
  (b!"proxy-authorization", b!""),
  (b!"proxy-authenticate", b!""),
  (b!"pragma", b!""),
  (b!"origin", b!""),
  (b!"max-forwards", b!""),
  (b!"location", b!""),
  (b!"last-modified", b!""),
  (b!"if-unmodified-since", b!""),
  (b!"if-range", b!""),
  (b!"if-none-match", b!""),
  (b!"if-modified-since", b!""),
  (b!"if-match", b!""),
  (b!"from", b!""),
  (b!"expires", b!""),
  (b!"expect", b!""),
  (b!"etag", b!""),
  (b!"date", b!""),
  (b!"content-type", b!""),
  (b!"content-range", b!""),
  (b!"content-md5", b!""),
  (b!"content-location", b!""),
  (b!"content-length", b!""),
  (b!"content-encoding", b!""),
  (b!"content-base", b!""),
  (b!"cache-control", b!""),
  (b!"authorizations", b!""),
  (b!"allow", b!""),
  (b!"accept-ranges", b!""),
  (b!"accept-language", b!""),
  (b!"accept-encoding", b!""),
  (b!"accept-charset", b!""),
  (b!"accept", b!""),
  (b!":version", b!"1.1"),
  (b!":status-text", b!"OK"),
  (b!":status", b!"200"),
  (b!"cookie", b!""),
  (b!":host", b!""),
  (b!":scheme", b!"https"),
  (b!":method", b!"get"),
  (b!":path", b!"/")]

/-- spdy4_codec_impl.py 700-701: storing the default entries. -/
def storeAll : List Hdr → Counts → Lru → Py (Counts × Lru)
  | [], c, s => .ok (c, s)
  | (k, v) :: kvs, c, s => do
    let (c, kv) := kvNew c k v
    let s ← s.store c kv
    storeAll kvs c s

/-- spdy4_codec_impl.py 693-705: the fields of a Storage; `counts` are the cells of its strings. -/
structure Storage where
  counts : Counts
  static : Lru
  lru : Lru
  deriving DecidableEq, Repr

/-- spdy4_codec_impl.py 696-705. -/
def Storage.init (maxByteSize maxEntries maxIndexSize : Int) : Py Storage := do
  let (c, static) ← storeAll defaultKvs [] {}
  let lru : Lru := { maxBytes := some maxByteSize, maxItems := some maxEntries, maxSeq := some maxIndexSize, offset := static.ring.length }
  pure { counts := c, static := static, lru := lru }

/-- spdy4_codec_impl.py 706-714. -/
def lruIdxToHgIdx (st : Storage) (idx : Int) : Py Int :=
  if idx < st.lru.ring.length then do
    let e ← pyIndex st.lru.ring (-(idx + 1))
    pure e.seq
  else .ok ((st.static.ring.length : Int) - 1 - (idx - st.lru.ring.length))

/-- spdy4_codec_impl.py 716-725. -/
def hgIdxToLruIdx (st : Storage) (idx : Int) : Py Int :=
  if idx ≥ st.static.ring.length then do
    let i ← seqNumToIdx st.lru idx
    pure ((st.lru.ring.length : Int) + st.static.ring.length - 1 - (i + st.static.ring.length))
  else .ok ((st.lru.ring.length : Int) + st.static.ring.length - 1 - idx)

/-- spdy4_codec_impl.py 731-735, InsertVal; also the removed entries. -/
def insertVal (st : Storage) (kv : KV) : Py (Storage × List Entry × Option Int) :=
  let r := reserve kv 1 st.counts st.lru
  let st := { st with counts := r.counts, lru := r.lru }
  if r.ok then do
    let lru ← st.lru.store st.counts kv
    let last ← pyIndex lru.ring (-1)
    pure ({ st with lru := lru }, r.popped, some last.seq)
  else .ok (st, r.popped, none)

/-- spdy4_codec_impl.py 737-741, LookupFromIdx. -/
def lookupFromIdx (st : Storage) (seqNum : Int) : Py Entry :=
  if seqNum < st.static.ring.length then lookup st.static seqNum else lookup st.lru seqNum

/-- spdy4_codec_impl.py 748-756, FindEntryIdx. -/
def findEntryIdx (st : Storage) (key val : Str) : Option Int × Option Int :=
  let r := findKeyValEntries st.lru key val
  match r.2 with
  | some _ => r
  | none =>
    match r.1 with
    | none => findKeyValEntries st.static key val
    | some k =>
      if k ≠ 0 then (some k, (findKeyValEntries st.static key val).2)
      else findKeyValEntries st.static key val

end Verif.Delta2
