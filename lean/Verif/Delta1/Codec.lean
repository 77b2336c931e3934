import Verif.Delta1.Storage
import Verif.Delta1.Wire
/-
Model of the class Spdy4CoDe, compressor/delta/spdy4_codec_impl.py 819-1091, with the parts of Storage that call
back into it, and of the Processor, compressor/delta/__init__.py.

* Strings are byte strings (Python 2).
* Where the code iterates over a set or a dictionary the order is a parameter.
* `WordFreak` only counts letters and is left out, so are debug output and the unused `options`.
-/
namespace Verif.Delta1
open Verif Verif.Bits Verif.Huff Verif.Delta2

/-- The state of a Spdy4CoDe object: the storage and `header_groups`. -/
structure Codec where
  store : Store
  groups : Dict Nat (List Nat) := []
  deriving DecidableEq, Repr

/-- The parameters max_byte_size and max_entries. -/
structure Config where
  maxBytes : Int
  maxEntries : Int
  deriving DecidableEq, Repr

/-- spdy4_codec_impl.py 820-835; `param_dict` is made as in delta2. -/
def Config.ofParams (pyInt : Str → Py Int) (params : List Str) : Py Config := do
  let d := paramDict params
  let mb ← intParam pyInt d b!"max_byte_size"
  let me ← intParam pyInt d b!"max_entries"
  pure { maxBytes := mb.getD (16 * 1024), maxEntries := me.getD 4096 }

/-- spdy4_codec_impl.py 837-849. -/
def Codec.init (staticKey : Str) (cfg : Config) : Py Codec := do
  let st ← Store.init staticKey cfg.maxBytes cfg.maxEntries
  pure { store := st }

/-- spdy4_codec_impl.py 884-889, FindOrMakeHeaderGroup. -/
def findOrMake (c : Codec) (gid : Nat) : Codec :=
  if c.groups.has gid then c else { c with groups := c.groups.set gid [] }

/-- `self.header_groups[group_id]`. -/
def group (groups : Dict Nat (List Nat)) (gid : Nat) : Py (List Nat) :=
  match groups.get? gid with
  | some hg => .ok hg
  | none => .error .key

/-- The loops spdy4_codec_impl.py 845-847 and 894-896: the index leaves the groups. -/
def removeFrom (i : Nat) : List Nat → Dict Nat (List Nat) → Py (Dict Nat (List Nat))
  | [], groups => .ok groups
  | g :: gs, groups => do
    let hg ← group groups g
    removeFrom i gs (groups.set g (removeAsc hg i))

/-- spdy4_codec_impl.py 673-680, PopOne, with RemoveVEFromAllHeaderGroups (842-847); `none` if there is nothing to remove. -/
def popOne (c : Codec) : Py (Option Codec) :=
  match c.store.lru with
  | [] => .ok none
  | ve :: rest => do
    let groups ← removeFrom ve.idx (groupsOf ve.hist) c.groups
    pure (some { store := removeVal c.store ve rest, groups := groups })

/-- The loop spdy4_codec_impl.py 687-689; `true` if it ends with `return`.  Every round but the last removes an entry. -/
def popLoop (adding : Int) : Nat → Codec → Py (Codec × Bool)
  | 0, _ => .error .outOfFuel
  | fuel + 1, c =>
    if c.store.numVals + adding > c.store.maxVals then do
      match ← popOne c with
      | none => pure (c, true)
      | some c => popLoop adding fuel c
    else .ok (c, false)

/-- spdy4_codec_impl.py 682-692, MakeSpace.  `PopOne` in line 691 is not defined. -/
def makeSpace (c : Codec) (space : Nat) (adding : Int) : Py Codec := do
  let (c, returned) ← popLoop adding (c.store.lru.length + 1) c
  if returned then pure c
  else if c.store.stateSize + space > c.store.maxSize then .error .name
  else pure c

/-- spdy4_codec_impl.py 715-726, FindOrAddKey. -/
def findOrAddKey (c : Codec) (key : Str) : Py Codec :=
  if c.store.keyMap.has key then .ok c
  else do
    let c ← makeSpace c key.length 0
    let (st, i) ← newKE c.store key
    if st.keyIdx.has i then .error .standard
    else pure { c with store := { st with keyIdx := st.keyIdx.set i key, stateSize := st.stateSize + key.length } }

/-- `ke.val_map.get(val, None)`, spdy4_codec_impl.py 805 and 730. -/
def findVal (s : Store) (key val : Str) : Option VE := s.lru.find? fun ve => ve.key = key ∧ ve.val = val

/-- spdy4_codec_impl.py 728-737, InsertVal; `false` for `None`.  The entry is complete after `addToHead`. -/
def insertVal (c : Codec) (key val : Str) : Py (Codec × Bool) := do
  let c ← findOrAddKey c key
  if (findVal c.store key val).isSome then pure (c, false)
  else do
    let c ← makeSpace { c with store := refCnt c.store key 1 } val.length 1
    let st := { c.store with numVals := c.store.numVals + 1 }
    pure ({ c with store := refCnt st key (-1) }, true)

/-- spdy4_codec_impl.py 758-766, AddToHeadOfLRU of a new entry (`None >= 0` is false). -/
def addToHead (c : Codec) (key val : Str) : Py (Codec × Nat) := do
  let (ids, i) ← nextUnused c.store.used c.store.lruIds
  pure ({ c with store := { c.store with lruIds := ids, lru := c.store.lru ++ [{ idx := i, key := key, val := val }] } }, i)

/-- spdy4_codec_impl.py 1030-1040, DoToggle. -/
def doToggle (c : Codec) (gid i : Nat) : Py Codec := do
  let ve ← lookup c.store i
  let hg ← group c.groups gid
  let ev := if gid ∈ groupsOf ve.hist then GEvent.remove gid else GEvent.add gid
  pure { store := c.store.update i fun ve => { ve with hist := ve.hist ++ [ev] }
         groups := c.groups.set gid (toggleAsc hg i) }

/-- A range of indices, `xrange(op['index_start'], op['index'] + 1)`. -/
def range (start last : Nat) : List Nat := (List.range (last + 1 - start)).map (start + ·)

/-- The indices an operation toggles. -/
def Op.toggled : Op → List Nat
  | .toggl i => [i]
  | .trang s l => range s l
  | _ => []

/-- The loop spdy4_codec_impl.py 1056-1059. -/
def turnOn (s : Store) : List Nat → Dict Str Str → Py (Dict Str Str)
  | [], h => .ok h
  | i :: is, h => do
    let ve ← lookup s i
    turnOn s is (appendToHeaders h ve.key ve.val)

/-- DoToggle for a list of indices. -/
def toggleAll (gid : Nat) : List Nat → Codec → Py Codec
  | [], c => .ok c
  | i :: is, c => do
    let c ← doToggle c gid i
    toggleAll gid is c

/-- The loop spdy4_codec_impl.py 1062-1077: the codec, `headers`, `kvs_to_store`. -/
def execOps (gid : Nat) : List Op → Codec → Dict Str Str → List Hdr → Py (Codec × Dict Str Str × List Hdr)
  | [], c, h, kvs => .ok (c, h, kvs)
  | .toggl i :: ops, c, h, kvs => do
    let c ← toggleAll gid [i] c
    execOps gid ops c h kvs
  | .trang s l :: ops, c, h, kvs => do
    let c ← toggleAll gid (range s l) c
    execOps gid ops c h kvs
  | .clone k v :: ops, c, h, kvs =>
    match c.store.keyIdx.get? k with
    | none => .error .attribute
    | some key => execOps gid ops c (appendToHeaders h key v) (kvs ++ [(key, v)])
  | .kvsto k v :: ops, c, h, kvs => execOps gid ops c (appendToHeaders h k v) (kvs ++ [(k, v)])
  | .eref k v :: ops, c, h, kvs => execOps gid ops c (appendToHeaders h k v) kvs

/-- spdy4_codec_impl.py 1081-1086, one header. -/
def storeOne (gid : Nat) (c : Codec) (kv : Hdr) : Py Codec := do
  let (c, new) ← insertVal c kv.1 kv.2
  if new then do
    let (c, i) ← addToHead c kv.1 kv.2
    doToggle c gid i
  else pure c

/-- The loop spdy4_codec_impl.py 1080-1086. -/
def storeAll (gid : Nat) : List Hdr → Codec → Py Codec
  | [], c => .ok c
  | kv :: kvs, c => do
    let c ← storeOne gid c kv
    storeAll gid kvs c

/-- spdy4_codec_impl.py 1042-1091, DecompressorExecuteOps.  `ord` is the order of `turnons`. -/
def execute (ord : List Nat → List Nat) (c : Codec) (ops : List Op) (gid : Nat) : Py (Codec × Dict Str Str) := do
  let c := findOrMake c gid
  let hg ← group c.groups gid
  let toggles := (ops.flatMap Op.toggled).foldl addSet []
  let h ← turnOn c.store (ord (symDiff toggles hg)) []
  let (c, h, kvs) ← execOps gid ops c h []
  let c ← storeAll gid kvs c
  pure (c, fixCookie h)

/-- spdy4_codec_impl.py 771-776 and 891-902, MoveToHeadOfLRU and RenumberVELruIdx of the entry with the index `i`.  The loop
variable has the name of the parameter `group_id`: the entry ends in the last group of the loop.  `ordG` is the order
of the set `groups` of an entry. -/
def renumber (ordG : List GEvent → List Nat) (gid : Nat) (c : Codec) (i : Nat) : Py Codec := do
  let ve ← lookup c.store i
  let gs := ordG ve.hist
  let groups ← removeFrom i gs c.groups
  let last := gs.getLast?.getD gid
  let st := { c.store with lru := c.store.lru.filter (·.idx ≠ i) }
  let (ids, j) ← nextUnused st.used st.lruIds
  let hg ← group groups last
  pure { store := { st with lruIds := ids, lru := st.lru ++ [{ ve with idx := j, hist := ve.hist ++ [.clear, .add last] }] }
         groups := groups.set last (insertAsc j hg) }

/-- The loop spdy4_codec_impl.py 910-912.  All entries are looked up before the first one is changed; an index that is
given anew is not one of those that are yet to come, because these are still in use. -/
def renumberAll (ordG : List GEvent → List Nat) (gid : Nat) : List Nat → Codec → Py Codec
  | [], c => .ok c
  | i :: is, c => do
    let c ← renumber ordG gid c i
    renumberAll ordG gid is c

/-- spdy4_codec_impl.py 905-912, AdjustHeaderGroupEntries; the group is an ascending list already. -/
def adjust (ordG : List GEvent → List Nat) (c : Codec) (gid : Nat) : Py Codec := do
  let hg ← group c.groups gid
  renumberAll ordG gid hg c

/-! ### Making operations -/

/-- Iteration orders for one message: of the header group, of `headers_set`, of `full_toggl_list`, of `turnons` in the
compressor and in the decompressor. -/
structure Orders where
  hg : List Nat → List Nat
  hset : List Hdr → List Hdr
  toggl : List Nat → List Nat
  onC : List Nat → List Nat
  onD : List Nat → List Nat

/-- Each order lists the same elements. -/
structure Orders.Ok (o : Orders) : Prop where
  hg : ∀ l, (o.hg l).Perm l
  hset : ∀ l, (o.hset l).Perm l
  toggl : ∀ l, (o.toggl l).Perm l
  onC : ∀ l, (o.onC l).Perm l
  onD : ∀ l, (o.onD l).Perm l

/-- The loop spdy4_codec_impl.py 934-942: `headers_set` and `done_set` (`keep_set` is not used). -/
def hgLoop (st : Store) : List Nat → List Hdr → List Nat → Py (List Hdr × List Nat)
  | [], hs, done => .ok (hs, done)
  | i :: is, hs, done => do
    let ve ← lookup st i
    if (ve.key, ve.val) ∈ hs then hgLoop st is (hs.filter (· ≠ (ve.key, ve.val))) done
    else hgLoop st is hs (addSet done i)

/-- spdy4_codec_impl.py 952-975, one header; `toggl` has the indices of `toggls`. -/
def makeOne (st : Store) (g : Instrs) (kv : Hdr) : Instrs :=
  if kv.1 = b!":path" ∨ kv.1 = b!"referer" then { g with eref := g.eref ++ [kv] }
  else
    match st.keyMap.get? kv.1 with
    | some ke =>
      match findVal st kv.1 kv.2 with
      | some ve => { g with toggl := addSet g.toggl ve.idx }
      | none => { g with clone := g.clone ++ [(ke.idx, kv.2)] }
    | none => { g with kvsto := g.kvsto ++ [kv] }

/-- spdy4_codec_impl.py 920-1002, the instructions; `headers_set` (923-932) is made as in delta2. -/
def makeInstructions (o : Orders) (c : Codec) (headers : Dict Str Str) (gid : Nat) : Py Instrs := do
  let hg ← group c.groups gid
  let (hs, done) ← hgLoop c.store (o.hg hg) (headersSet headers) []
  let g := (o.hset hs).foldl (makeOne c.store) {}
  pure { g with toggl := o.toggl (done.foldl addSet g.toggl) }

/-- spdy4_codec_impl.py 1004-1006: `output_instrs`. -/
def Instrs.ops (g : Instrs) : List Op :=
  g.toggl.map .toggl ++ g.clone.map (fun x => .clone x.1 x.2) ++ g.kvsto.map (fun x => .kvsto x.1 x.2) ++
    g.eref.map (fun x => .eref x.1 x.2)

/-- spdy4_codec_impl.py 916-1020, MakeOperations. -/
def makeOperations (ordG : List GEvent → List Nat) (o : Orders) (c : Codec) (headers : Dict Str Str) (gid : Nat) :
    Py (Codec × Instrs) := do
  let c := findOrMake c gid
  let g ← makeInstructions o c headers gid
  let (c, _) ← execute o.onC c g.ops gid
  let c ← adjust ordG c gid
  pure (c, g)

/-- spdy4_codec_impl.py 1022-1028, RealOpsToOpAndExecute. -/
def executeReal (ordG : List GEvent → List Nat) (h : Huffman) (ord : List Nat → List Nat) (c : Codec) (blob : Str) :
    Py (Codec × Dict Str Str) := do
  let (gid, ops) ← realOpsToOps h blob
  let (c, out) ← execute ord (findOrMake c gid) ops gid
  let c ← adjust ordG c gid
  pure (c, out)

/-! ### The Processor -/

/-- What is fixed when a Processor is made: the parameters, the Huffman coder, the regular expression of lines
47-48, as a function, the name of the last opcode in the dictionary, and the order of the sets of groups. -/
structure Setup where
  cfg : Config
  huffman : Huffman
  norm : Str → Str
  staticKey : Str
  ordG : List GEvent → List Nat

/-- What `compress` changes, __init__.py 28-31. -/
structure Compressor where
  codec : Codec
  hosts : Dict Str Nat := []
  ids : IdSt := { maxId := 255 }
  deriving DecidableEq, Repr

/-- __init__.py 47-53: the group of a host. -/
def groupOf (u : Setup) (c : Compressor) (host : Str) : Compressor × Nat :=
  match c.hosts.get? (u.norm host) with
  | some gid => (c, gid)
  | none =>
    let r := getNext c.ids
    ({ c with ids := r.1, hosts := c.hosts.set (u.norm host) r.2 }, r.2)

/-- A message: headers, host, and the orders in which sets are iterated. -/
structure Message where
  headers : Dict Str Str
  host : Str
  orders : Orders

/-- __init__.py 46-57, compress. -/
def compress (u : Setup) (c : Compressor) (m : Message) : Py (Compressor × Str) := do
  let (c, gid) := groupOf u c m.host
  let (codec, g) ← makeOperations u.ordG m.orders c.codec m.headers gid
  let blob ← opsToRealOps u.huffman g.groups gid
  pure ({ c with codec := codec }, blob)

/-- __init__.py 59-63, decompress. -/
def decompress (u : Setup) (o : Orders) (d : Codec) (blob : Str) : Py (Codec × Dict Str Str) :=
  executeReal u.ordG u.huffman o.onD d blob

/-- A session. -/
def compressAll (u : Setup) : List Message → Compressor → Py (Compressor × List Str)
  | [], c => .ok (c, [])
  | m :: ms, c => do
    let (c, b) ← compress u c m
    let (c, bs) ← compressAll u ms c
    pure (c, b :: bs)

/-- The other side of a session. -/
def decompressAll (u : Setup) : List (Orders × Str) → Codec → Py (Codec × List (Dict Str Str))
  | [], d => .ok (d, [])
  | (o, b) :: bs, d => do
    let (d, out) ← decompress u o d b
    let (d, outs) ← decompressAll u bs d
    pure (d, out :: outs)

end Verif.Delta1
