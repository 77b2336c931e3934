import Verif.DeltaBohe.Model
import Verif.Delta2.Lru
/-
Model of compressor/delta2_bohe: lrustorage.py, spdy4_codec_impl.py (packing, the serialiser, HeaderGroup, Storage,
Spdy4CoDe), bohe.py and the Processor in __init__.py, which only compresses.

The package cannot be loaded: __init__.py 12 imports `strip_conn_headers`, which does not exist.  The model is of what the
code would do with a function that leaves the headers alone.

bit_bucket.py, huffman.py and header_freq_tables.py do what the files in compressor/delta do.

* The callback `pop_cb` does not look at the storage, so `reserve` returns the removed entries, for which `insertVal` then
  runs the callback.
* `Lookup` returns a copy of an entry, so storing it again (`MoveToHeadOfLRU`) makes a second entry and leaves the first one
  and its number alone.
* A header group object that has been deleted from `header_groups` is not used any more, except for its sorted
  indices in `AdjustHeaderGroupEntries`.
* Where the code iterates over a dictionary with arbitrary keys the order is a parameter; a dictionary of headers is
  given in its order.
* `DoneWithId` is never called, so the set `ids` of the IDStore is always empty and ids are counted up.
* `eref` operations are never made.
* Word statistics and debug output are left out.
-/
namespace Verif.Delta2Bohe
open Verif Verif.Bits Verif.Huff

/-! ### LruStorage -/

/-- lrustorage.py 4-15: a KV in the ring. -/
structure Entry where
  key : Str
  val : Str
  seq : Nat
  deriving DecidableEq, Repr

/-- lrustorage.py 10-11, ByteSize. -/
def Entry.size (e : Entry) : Nat := e.val.length + e.key.length

/-- lrustorage.py 17-30. -/
structure Lru where
  ring : List Entry := []
  byteSize : Int := 0
  maxItems : Option Nat := none
  maxBytes : Option Nat := none
  maxSeq : Option Nat := none
  offset : Nat := 0
  seqNum : Nat := offset
  deriving DecidableEq, Repr

/-- The loops lrustorage.py 37-39 and 41-43 with PopOne (46-52): while `cond`, remove the first entry; `popleft` raises
if there is none.  The list is the ring. -/
def popWhile (cond : Lru → Bool) : List Entry → Lru → List Entry → Py (Lru × List Entry)
  | [], s, popped => if cond s then .error .index else .ok (s, popped)
  | e :: rest, s, popped =>
    if cond s then popWhile cond rest { s with ring := rest, byteSize := s.byteSize - e.size } (popped ++ [e])
    else .ok (s, popped)

/-- lrustorage.py 36-39; 0 is no limit. -/
def itemsOver (itemCount : Nat) (s : Lru) : Bool :=
  match s.maxItems with
  | none => false
  | some m => decide (m ≠ 0 ∧ s.ring.length + itemCount > m)

/-- lrustorage.py 40-43; 0 is no limit. -/
def bytesOver (size : Nat) (s : Lru) : Bool :=
  match s.maxBytes with
  | none => false
  | some m => decide (m ≠ 0 ∧ s.byteSize + size > m)

/-- lrustorage.py 35-44, Reserve; also the removed entries. -/
def reserve (size itemCount : Nat) (s : Lru) : Py (Lru × List Entry) := do
  let (s, popped) ← popWhile (itemsOver itemCount) s.ring s []
  popWhile (bytesOver size) s.ring s popped

/-- lrustorage.py 54-65, Store. -/
def Lru.store (s : Lru) (key val : Str) : Py Lru :=
  let size := val.length + key.length
  if bytesOver size s then .error .memory
  else if itemsOver 1 s then .error .memory
  else
    let next := s.seqNum + 1
    let next := match s.maxSeq with
      | none => next
      | some m => if m ≠ 0 ∧ next > m then s.offset else next
    .ok { s with ring := s.ring ++ [⟨key, val, s.seqNum⟩], byteSize := s.byteSize + size, seqNum := next }

/-- lrustorage.py 67-85, Lookup. -/
def lookup (s : Lru) (n : Nat) : Py Entry :=
  match s.ring with
  | [] => .error .index
  | e :: _ =>
    if n < s.offset then .error .index
    else if e.seq > n then
      match s.maxSeq with
      | none => .error .index
      | some m => if m = 0 then .error .index else Delta2.pyIndex s.ring ((m : Int) - e.seq + n)
    else Delta2.pyIndex s.ring ((n : Int) - e.seq)

/-- The loop lrustorage.py 91-100, over the entries except the first one, the last one first.  The inner loop looks at the
entry of the outer one every time. -/
def findLoop (key val : Str) : List Entry → Option Entry × Option Entry
  | [] => (none, none)
  | e :: es => if e.key = key then (some e, if e.val = val then some e else none) else findLoop key val es

/-- lrustorage.py 87-101, FindKeyValEntries. -/
def findKeyValEntries (s : Lru) (key val : Str) : Option Entry × Option Entry := findLoop key val (s.ring.drop 1).reverse

/-! ### Storage -/

/-- `g_default_kvs`, spdy4_codec_impl.py 23-89. -/
def defaultKvs : List Hdr :=
  [(b!"date", b!""), (b!":scheme", b!"https"), (b!":method", b!"get"), (b!":path", b!"/"), (b!":host", b!""),
   (b!"cookie", b!""), (b!":status", b!"200"), (b!":status-text", b!"OK"), (b!":version", b!"1.1"), (b!"accept", b!""),
   (b!"accept-charset", b!""), (b!"accept-encoding", b!""), (b!"accept-language", b!""), (b!"accept-ranges", b!""),
   (b!"allow", b!""), (b!"authorizations", b!""), (b!"cache-control", b!""), (b!"content-base", b!""),
   (b!"content-encoding", b!""), (b!"content-length", b!""), (b!"content-location", b!""), (b!"content-md5", b!""),
   (b!"content-range", b!""), (b!"content-type", b!""), (b!"etag", b!""), (b!"expect", b!""), (b!"expires", b!""),
   (b!"from", b!""), (b!"if-match", b!""), (b!"if-modified-since", b!""), (b!"if-none-match", b!""), (b!"if-range", b!""),
   (b!"if-unmodified-since", b!""), (b!"last-modified", b!""), (b!"location", b!""), (b!"max-forwards", b!""),
   (b!"origin", b!""), (b!"pragma", b!""), (b!"proxy-authenticate", b!""), (b!"proxy-authorization", b!""), (b!"range", b!""),
   (b!"referer", b!""), (b!"retry-after", b!""), (b!"server", b!""), (b!"set-cookie", b!""), (b!"status", b!""),
   (b!"te", b!""), (b!"trailer", b!""), (b!"transfer-encoding", b!""), (b!"upgrade", b!""), (b!"user-agent", b!""),
   (b!"user-agent", b!""), (b!"vary", b!""), (b!"via", b!""), (b!"warning", b!""), (b!"www-authenticate", b!""),
   (b!"access-control-allow-origin", b!""), (b!"content-disposition", b!""), (b!"get-dictionary", b!""), (b!"p3p", b!""),
   (b!"x-content-type-options", b!""), (b!"x-frame-options", b!""), (b!"x-powered-by", b!""), (b!"x-xss-protection", b!""),
   (b!"connection", b!"keep-alive")]

/-- The loop spdy4_codec_impl.py 644-645. -/
def storeAll : List Hdr → Lru → Py Lru
  | [], s => .ok s
  | (k, v) :: kvs, s => do
    let s ← s.store k v
    storeAll kvs s

/-- spdy4_codec_impl.py 577-583: a header group. -/
structure Group where
  store : Dict Nat Nat := []
  generation : Nat := 0
  deriving DecidableEq, Repr

/-- spdy4_codec_impl.py 641-649 and 688-708: a Spdy4CoDe with its Storage. -/
structure Codec where
  static : Lru
  lru : Lru
  groups : Dict Nat Group := []
  deriving DecidableEq, Repr

/-- spdy4_codec_impl.py 642-649. -/
def Codec.init : Py Codec := do
  let static ← storeAll defaultKvs {}
  let lru : Lru := { maxBytes := some (16 * 1024), maxItems := some 1024, maxSeq := some (2 ^ 16), offset := static.ring.length }
  pure { static := static, lru := lru }

/-- spdy4_codec_impl.py 654-657, LookupFromIdx. -/
def lookupFromIdx (c : Codec) (n : Nat) : Py Entry :=
  if n < c.static.ring.length then lookup c.static n else lookup c.lru n

/-- spdy4_codec_impl.py 696-707, RemoveVIdxFromAllHeaderGroups. -/
def removeVIdx (groups : Dict Nat Group) (e : Entry) : Dict Nat Group :=
  (groups.map fun g => (g.1, { g.2 with store := g.2.store.del e.seq })).filter fun g => g.2.store ≠ []

/-- spdy4_codec_impl.py 659-662, InsertVal, with the callback; returns the number of the last entry. -/
def insertVal (c : Codec) (key val : Str) : Py (Codec × Nat) := do
  let (lru, popped) ← reserve (val.length + key.length) 1 c.lru
  let groups := popped.foldl removeVIdx c.groups
  let lru ← lru.store key val
  let last ← Delta2.pyIndex lru.ring (-1)
  pure ({ c with lru := lru, groups := groups }, last.seq)

/-- spdy4_codec_impl.py 667-686, FindEntryIdx. -/
def findEntryIdx (c : Codec) (key val : Str) : Option Nat × Option Nat :=
  match findKeyValEntries c.lru key val with
  | (some ke, some ve) => (some ke.seq, some ve.seq)
  | (some ke, none) => (some ke.seq, (findKeyValEntries c.static key val).2.map (·.seq))
  | (none, _) =>
    let r := findKeyValEntries c.static key val
    (r.1.map (·.seq), r.2.map (·.seq))

/-! ### Header groups -/

/-- spdy4_codec_impl.py 747-752, FindOrMakeHeaderGroup. -/
def findOrMake (c : Codec) (gid : Nat) : Codec :=
  if c.groups.has gid then c else { c with groups := c.groups.set gid {} }

/-- `self.header_groups[group_id]`. -/
def theGroup (c : Codec) (gid : Nat) : Py Group :=
  match c.groups.get? gid with
  | none => .error .key
  | some g => .ok g

/-- spdy4_codec_impl.py 607-611 and 754-759, TouchHeaderGroupEntry; an index is never None. -/
def touch (c : Codec) (gid : Nat) (i : Nat) : Codec :=
  let c := findOrMake c gid
  match c.groups.get? gid with
  | none => c
  | some g => { c with groups := c.groups.set gid { g with store := g.store.set i g.generation } }

/-- spdy4_codec_impl.py 628-636 and 912-914, ExecuteToggle. -/
def toggle (c : Codec) (gid : Nat) (i : Nat) : Py Codec := do
  let g ← theGroup c gid
  let store := if g.store.has i then g.store.del i else g.store.set i g.generation
  pure { c with groups := c.groups.set gid { g with store := store } }

/-- `toggle` for a list of indices. -/
def toggleAll (gid : Nat) : List Nat → Codec → Py Codec
  | [], c => .ok c
  | i :: is, c => do
    let c ← toggle c gid i
    toggleAll gid is c

/-- The loop spdy4_codec_impl.py 586-590. -/
def findInGroup (c : Codec) (key val : Str) : List Nat → Py (Option Nat)
  | [] => .ok none
  | i :: is => do
    let e ← lookupFromIdx c i
    if e.key = key ∧ e.val = val then pure (some i) else findInGroup c key val is

/-- spdy4_codec_impl.py 585-591, HasKVAndTouchIfTrue; `ord` is the order of the group's dictionary. -/
def hasKV (ord : List Nat → List Nat) (c : Codec) (gid : Nat) (key val : Str) : Py (Codec × Bool) := do
  let g ← theGroup c gid
  let r ← findInGroup c key val (ord g.store.keys)
  match r with
  | none => pure (c, false)
  | some i => pure (touch c gid i, true)

/-! ### Making operations -/

/-- What MakeOperations returns, by opcode; `huff` of an operation is its last component. -/
structure Instrs where
  toggl : List Nat := []
  clone : List (Nat × Str × Bool) := []
  kvsto : List (Str × Str × Bool) := []
  deriving DecidableEq, Repr

/-- spdy4_codec_impl.py 811-842, ProcessKV. -/
def processKV (ord : List Nat → List Nat) (gid : Nat) (key val : Str) (c : Codec) (g : Instrs) : Py (Codec × Instrs) := do
  let huff := decide (key ∉ Bohe.encoderNames)
  let (c, found) ← hasKV ord c gid key val
  if found then pure (c, g)
  else
    match findEntryIdx c key val with
    | (_, some v) => do
      let grp ← theGroup c gid
      if grp.store.has v then pure (touch c gid v, g) else pure (c, { g with toggl := g.toggl ++ [v] })
    | (some k, none) => pure (c, { g with clone := g.clone ++ [(k, val, huff)] })
    | (none, none) => pure (c, { g with kvsto := g.kvsto ++ [(key, val, huff)] })

/-- The loop spdy4_codec_impl.py 860-861; `enc` is `bohe.encode`. -/
def cookieLoop (enc : Str → Str → Py Str) (ord : List Nat → List Nat) (gid : Nat) (k : Str) : List Str → Codec → Instrs →
    Py (Codec × Instrs)
  | [], c, g => .ok (c, g)
  | x :: xs, c, g => do
    let e ← enc k x
    let (c, g) ← processKV ord gid k e c g
    cookieLoop enc ord gid k xs c g

/-- The loop spdy4_codec_impl.py 856-863. -/
def headersLoop (enc : Str → Str → Py Str) (ord : List Nat → List Nat) (gid : Nat) : List Hdr → Codec → Instrs →
    Py (Codec × Instrs)
  | [], c, g => .ok (c, g)
  | (k, v) :: hs, c, g =>
    if k = b!"cookie" then do
      let (c, g) ← cookieLoop enc ord gid k (DeltaBohe.crumbs v) c g
      headersLoop enc ord gid hs c g
    else do
      let e ← enc k v
      let (c, g) ← processKV ord gid k e c g
      headersLoop enc ord gid hs c g

/-- spdy4_codec_impl.py 931-935: storing a key and a value, and adding it to the group. -/
def storeEntry (gid : Nat) (c : Codec) (key val : Str) : Py Codec := do
  let (c, i) ← insertVal c key val
  pure (touch c gid i)

/-- `storeEntry` for a list. -/
def storeEntries (gid : Nat) : List Hdr → Codec → Py Codec
  | [], c => .ok c
  | (k, v) :: kvs, c => do
    let c ← storeEntry gid c k v
    storeEntries gid kvs c

/-- The loops spdy4_codec_impl.py 795-805 and 896-903: clones with the key instead of its index. -/
def translate (c : Codec) : List (Nat × Str) → Py (List Hdr)
  | [] => .ok []
  | (k, v) :: ops => do
    let e ← lookupFromIdx c k
    let rest ← translate c ops
    pure ((e.key, v) :: rest)

/-- spdy4_codec_impl.py 789-809, ExecuteInstructionsExceptERefs. -/
def executeInstrs (gid : Nat) (c : Codec) (g : Instrs) : Py Codec := do
  let c ← toggleAll gid g.toggl c
  let kvs ← translate c (g.clone.map fun x => (x.1, x.2.1))
  let c ← storeEntries gid kvs c
  storeEntries gid (g.kvsto.map fun x => (x.1, x.2.1)) c

/-- spdy4_codec_impl.py 619-623 and 764-773, FindOldEntries and DiscoverTurnOffs; `ord` is the order of the group's
dictionary. -/
def turnOffs (ord : List Nat → List Nat) (g : Group) : List Nat :=
  (ord g.store.keys).filter fun i => g.store.get? i ≠ some g.generation

/-- The loop spdy4_codec_impl.py 781-782. -/
def lookupAll (c : Codec) : List Nat → Py (List Entry)
  | [] => .ok []
  | i :: is => do
    let e ← lookupFromIdx c i
    let es ← lookupAll c is
    pure (e :: es)

/-- The loop spdy4_codec_impl.py 783-784 with 664-665, MoveToHeadOfLRU. -/
def insertAll : List Entry → Codec → Py Codec
  | [], c => .ok c
  | e :: es, c => do
    let (c, _) ← insertVal c e.key e.val
    insertAll es c

/-- spdy4_codec_impl.py 775-787, AdjustHeaderGroupEntries. -/
def adjust (c : Codec) (gid : Nat) : Py Codec := do
  let g ← theGroup c gid
  let items ← lookupAll c (sortBy (fun a b => decide (a ≤ b)) g.store.keys)
  insertAll items c

/-- The order of the group's dictionary, when a header is searched and when old entries are. -/
structure Orders where
  has : List Nat → List Nat
  old : List Nat → List Nat

/-- spdy4_codec_impl.py 844-876: MakeOperations up to the adjustment. -/
def makeBody (enc : Str → Str → Py Str) (o : Orders) (c : Codec) (headers : List Hdr) (gid : Nat) : Py (Codec × Instrs) := do
  let c := findOrMake c gid
  let (c, g) ← headersLoop enc o.has gid headers c {}
  let c ← executeInstrs gid c g
  let c := findOrMake c gid
  let grp ← theGroup c gid
  let off := turnOffs o.old grp
  let c ← toggleAll gid off c
  let grp ← theGroup c gid
  pure ({ c with groups := c.groups.set gid { grp with generation := grp.generation + 1 } }, { g with toggl := g.toggl ++ off })

/-- spdy4_codec_impl.py 844-879, MakeOperations. -/
def makeOperations (enc : Str → Str → Py Str) (o : Orders) (c : Codec) (headers : List Hdr) (gid : Nat) :
    Py (Codec × Instrs) := do
  let (c, g) ← makeBody enc o c headers gid
  let c ← adjust c gid
  pure (c, g)

/-! ### The wire -/

/-- spdy4_codec_impl.py 247-278, PackStr with `str_pack_params`; without Huffman coding nothing marks the end. -/
def packStr (h : Huffman) (huff : Bool) (b : BitBucket) (val : Str) : Py BitBucket :=
  if huff then Delta1.packStr h b val else storeBits b val (val.length * 8)

/-- An operation as it is written. -/
inductive Op where
  | toggl (index : Nat)
  | trang (start last : Nat)
  | clone (keyIdx : Nat) (val : Str) (huff : Bool)
  | kvsto (key val : Str) (huff : Bool)
  deriving DecidableEq, Repr

/-- spdy4_codec_impl.py 438-458, WriteOpData: the fields in `packing_order` (index, index_start, key_idx, key, val). -/
def writeOp (h : Huffman) (b : BitBucket) : Op → Py BitBucket
  | .toggl i => Delta2.packInt b 16 i
  | .trang s l => do
    let b ← Delta2.packInt b 16 l
    Delta2.packInt b 16 s
  | .clone k v huff => do
    let b ← Delta2.packInt b 16 k
    packStr h huff b v
  | .kvsto k v huff => do
    let b ← packStr h huff b k
    packStr h huff b v

/-- The loop spdy4_codec_impl.py 430-436. -/
def writeOps (h : Huffman) : List Op → BitBucket → Py BitBucket
  | [], b => .ok b
  | op :: ops, b => do
    let b ← writeOp h b op
    writeOps h ops b

/-- spdy4_codec_impl.py 404-436, OutputOps.  The inner loop writes all operations, so the outer loop runs at most once. -/
def outputOps (h : Huffman) (opcode : Nat) (ops : List Op) (b : BitBucket) : Py BitBucket :=
  if ops.length = 0 then .ok b
  else do
    let b ← storeBits8 b opcode
    let b ← storeBits8 b (min 256 ops.length - 1)
    writeOps h ops b

/-- The operations in the order in which they are written, spdy4_codec_impl.py 493-500, by opcode; PreProcessToggles
(381-402) makes ranges of toggles as in compressor/delta. -/
def Instrs.groups (g : Instrs) : List (Nat × List Op) :=
  let r := Delta1.toggleRanges g.toggl
  [(1, r.ot.map .toggl), (2, r.otr.map fun x => .trang x.1 x.2), (3, g.clone.map fun x => .clone x.1 x.2.1 x.2.2),
   (4, g.kvsto.map fun x => .kvsto x.1 x.2.1 x.2.2)]

/-- spdy4_codec_impl.py 495-500. -/
def outputAll (h : Huffman) : List (Nat × List Op) → BitBucket → Py BitBucket
  | [], b => .ok b
  | (oc, ops) :: gs, b => do
    let b ← outputOps h oc ops b
    outputAll h gs b

/-- spdy4_codec_impl.py 464-523, SerializeInstructions; the frame header and the loop are those of compressor/delta. -/
def serialize (h : Huffman) (gs : List (Nat × List Op)) (streamId groupId : Nat) : Py (List Nat × Int) := do
  let payload ← outputAll h gs BitBucket.empty
  let payloadLen := (numBits payload + 7) / 8
  let frame ← Delta1.boilerplate BitBucket.empty 0 0 0 groupId 0
  let bytesAllowed := 2 ^ 16 - (bytesOfStorage frame).toNat
  let b ← Delta1.frameLoop streamId groupId bytesAllowed (payloadLen.toNat + 1) BitBucket.empty payload.output payloadLen.toNat
  pure (b.output, numBits b)

/-- spdy4_codec_impl.py 295-302 and 710-715, PackOps and OpsToRealOps. -/
def opsToRealOps (h : Huffman) (g : Instrs) (groupId : Nat) : Py Str := do
  let (bytes, n) ← serialize h g.groups 1234 groupId
  let data ← storeBits BitBucket.empty bytes n.toNat
  pure data.output

/-! ### The Processor -/

/-- `bohe.NEW_EPOCH` is not a constant: bohe.py 13-20, BaseEncoder, asks the clock.  `epoch` is the time of the first of January of
`y - (y % 21)` for the present year `y`, in seconds since 1970.  Everything else in bohe.py (32-301) is as in compressor/bohe
(`Bohe.Libs.date` is the time before the subtraction of NEW_EPOCH); the codec always says that it encodes requests. -/
def encode (L : Bohe.Libs) (epoch : Int) : Str → Str → Py Str :=
  Bohe.encodeField { L with date := fun s => (L.date s).map fun t => t - epoch + Bohe.newEpoch }

/-- What `compress` changes, __init__.py 28-34. -/
structure Compressor where
  codec : Codec
  hosts : Dict Str Nat := []
  nextIdx : Nat := 0
  deriving DecidableEq, Repr

/-- common_utils.py 66-74, GetNext; `minimum_id` is misspelt in the constructor. -/
def getNext (n : Nat) : Py Nat := if n + 1 ≥ 2 ^ 31 then .error .attribute else .ok (n + 1)

/-- __init__.py 68-74: the group of a host; `norm` is the regular expression. -/
def groupOf (norm : Str → Str) (c : Compressor) (host : Str) : Py (Compressor × Nat) :=
  match c.hosts.get? (norm host) with
  | some gid => .ok (c, gid)
  | none => do
    let gid ← getNext c.nextIdx
    pure ({ c with nextIdx := gid, hosts := c.hosts.set (norm host) gid }, gid)

/-- A message. -/
structure Message where
  headers : List Hdr
  host : Str
  orders : Orders

/-- __init__.py 48-78, compress. -/
def compress (enc : Str → Str → Py Str) (norm : Str → Str) (h : Huffman) (c : Compressor) (m : Message) :
    Py (Compressor × Str) := do
  let (c, gid) ← groupOf norm c m.host
  let (codec, g) ← makeOperations enc m.orders c.codec m.headers gid
  let blob ← opsToRealOps h g gid
  pure ({ c with codec := codec }, blob)

/-- A session. -/
def compressAll (enc : Str → Str → Py Str) (norm : Str → Str) (h : Huffman) : List Message → Compressor →
    Py (Compressor × List Str)
  | [], c => .ok (c, [])
  | m :: ms, c => do
    let (c, b) ← compress enc norm h c m
    let (c, bs) ← compressAll enc norm h ms c
    pure (c, b :: bs)

/-! ### What the receiver would do

`decompress` is commented out in __init__.py 80-84, but the methods it calls are there.  DeserializeInstructions
(spdy4_codec_impl.py 525-575) is `Delta1.realOpsToOps`. -/

/-- The operations as the receiver finds them. -/
def Instrs.ops (g : Instrs) : List Delta1.Op :=
  let r := Delta1.toggleRanges g.toggl
  r.ot.map .toggl ++ (r.otr.map fun x => .trang x.1 x.2) ++ (g.clone.map fun x => .clone x.1 x.2.1) ++
    g.kvsto.map fun x => .kvsto x.1 x.2.1

/-- spdy4_codec_impl.py 916-937, ExecuteOp of an operation other than a clone. -/
def execOp (gid : Nat) (c : Codec) : Delta1.Op → Py Codec
  | .toggl i => toggle c gid i
  | .trang s l => toggleAll gid ((List.range (l + 1 - s)).map (s + ·)) c
  | .clone _ _ => .ok c
  | .kvsto k v => storeEntry gid c k v
  | .eref _ _ => .ok c

/-- The loop spdy4_codec_impl.py 906-909; clones are skipped. -/
def execLoop (gid : Nat) : List Delta1.Op → Codec → Py Codec
  | [], c => .ok c
  | op :: ops, c => do
    let c ← execOp gid c op
    execLoop gid ops c

/-- spdy4_codec_impl.py 897-899. -/
def cloneOf : Delta1.Op → Option (Nat × Str)
  | .clone k v => some (k, v)
  | _ => none

/-- spdy4_codec_impl.py 890-909, ExecuteOps. -/
def execOps (c : Codec) (ops : List Delta1.Op) (gid : Nat) : Py Codec := do
  let c := findOrMake c gid
  let kvs ← translate c (ops.filterMap cloneOf)
  let c ← storeEntries gid kvs c
  execLoop gid ops c

/-- The loop spdy4_codec_impl.py 948-955. -/
def collect : List Entry → Dict Str Str → Dict Str Str
  | [], h => h
  | e :: es, h =>
    match h.get? e.key with
    | some v => collect es (h.set e.key (v ++ [0] ++ e.val))
    | none => collect es (h.set e.key e.val)

/-- spdy4_codec_impl.py 959-960. -/
def fixCookie (h : Dict Str Str) : Dict Str Str :=
  match h.get? b!"cookie" with
  | some v => h.set b!"cookie" (v.flatMap fun x => if x = 0 then [59, 32] else [x])
  | none => h

/-- spdy4_codec_impl.py 939-962, GenerateAllHeaders. -/
def generate (c : Codec) (gid : Nat) : Py (Codec × Dict Str Str) := do
  let g ← theGroup c gid
  let es ← lookupAll c (sortBy (fun a b => decide (a ≤ b)) g.store.keys)
  let c ← adjust c gid
  pure (c, fixCookie (collect es []))

/-- What the receiver does with the operations of a message. -/
def receive (c : Codec) (g : Instrs) (gid : Nat) : Py (Codec × Dict Str Str) := do
  let c ← execOps c g.ops gid
  generate c gid

end Verif.Delta2Bohe
