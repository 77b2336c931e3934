import Verif.Delta2.Lru
import Verif.Delta2.Toggles
import Verif.Delta2.Ids
/-
Model of the class Spdy4CoDe, compressor/delta2/spdy4_codec_impl.py 354-358 and 675-1125, and of the Processor,
compressor/delta2/__init__.py.

* Strings are byte strings (Python 2).
* A set is a list without duplicates; where the code iterates over a set or over the dictionary of
  instructions, the order is a parameter.
* `g_stats.Process` only counts letters; it is left out.
* The header group an operation works on may be deleted from `header_groups` while it is being changed (when an
  eviction leaves it empty).  The code goes on changing the deleted object, which nobody looks at any
  more; the model ignores such changes.
-/
namespace Verif.Delta2
open Verif Verif.Huff

/-! ### Parameters -/

/-- What `__init__` makes of the parameters. -/
structure Config where
  maxBytes : Int
  maxEntries : Int
  maxIndex : Int
  ints : IntPack
  hgAdjust : Bool
  implicitAdd : Bool
  refcntVals : Bool
  onlyEtoggles : Bool
  fromEnd : Bool
  deriving DecidableEq, Repr

/-- spdy4_codec_impl.py 791-797: `param_dict`. -/
def paramDict (params : List Str) : Dict Str (Option Str) :=
  params.foldl (fun d param =>
    match splitOn 61 param with
    | k :: v :: vs => d.set k (some (joinWith [61] (v :: vs)))
    | k :: [] => d.set k none
    | [] => d) []

/-- spdy4_codec_impl.py 776-785, IsTrueWithDefault. -/
def isTrueWithDefault (d : Dict Str (Option Str)) (key : Str) (default : Bool) : Bool :=
  match d.get? key with
  | some (some s) => s = b!"True" || s = b!"true" || s = b!"1" || s = b!"t"
  | _ => default

/-- `int(param_dict[key])` if the key is there; `pyInt` is `int` of a string, and `int(None)` is a TypeError. -/
def intParam (pyInt : Str → Py Int) (d : Dict Str (Option Str)) (key : Str) : Py (Option Int) :=
  match d.get? key with
  | none => .ok none
  | some none => .error .type
  | some (some s) => (pyInt s).map some

/-- spdy4_codec_impl.py 788-828, what is made of `max_entries`. -/
def entriesLimit : Option Int → Int
  | none => 1024
  | some n => min (2 ^ 16 - 1 - (defaultKvs.length : Int)) n

/-- spdy4_codec_impl.py 788-828, `__init__`. -/
def Config.ofParams (pyInt : Str → Py Int) (params : List Str) : Py Config := do
  let d := paramDict params
  let mb ← intParam pyInt d b!"max_byte_size"
  let me ← intParam pyInt d b!"max_entries"
  let maxEntries := entriesLimit me
  let small := isTrueWithDefault d b!"small_index" true
  let maxIndex : Int := if small then 256 - 1 else 2 ^ 16 - 1
  pure {
    maxBytes := mb.getD (4 * 1024)
    maxEntries := if small then min (maxIndex - defaultKvs.length) maxEntries else maxEntries
    maxIndex := maxIndex
    ints := if isTrueWithDefault d b!"varint_encoding" true then .varint else if small then .int8 else .int16
    hgAdjust := isTrueWithDefault d b!"hg_adjust" false
    implicitAdd := isTrueWithDefault d b!"implicit_hg_add" false
    refcntVals := isTrueWithDefault d b!"refcnt_vals" false
    onlyEtoggles := isTrueWithDefault d b!"only_etoggles" false
    fromEnd := isTrueWithDefault d b!"idx_from_end" true }

/-! ### Sets -/

/-- `s.add(x)`. -/
def addSet {α : Type} [DecidableEq α] (s : List α) (x : α) : List α := if x ∈ s then s else s ++ [x]

/-- `s.symmetric_difference_update([x])`. -/
def toggleSet {α : Type} [DecidableEq α] (s : List α) (x : α) : List α := if x ∈ s then s.filter (· ≠ x) else s ++ [x]

/-- `a.symmetric_difference(b)`. -/
def symDiff {α : Type} [DecidableEq α] (a b : List α) : List α := b.foldl toggleSet a

/-! ### The codec -/

/-- The state of a Spdy4CoDe object. -/
structure Codec where
  storage : Storage
  groups : Dict Nat (List Int) := []
  deriving DecidableEq, Repr

/-- spdy4_codec_impl.py 825-831. -/
def Codec.init (cfg : Config) : Py Codec := do
  let st ← Storage.init cfg.maxBytes cfg.maxEntries cfg.maxIndex
  pure { storage := st }

/-- spdy4_codec_impl.py 832-839, RemoveVIdxFromAllHeaderGroups. -/
def removeVIdx (groups : Dict Nat (List Int)) (e : Entry) : Dict Nat (List Int) :=
  (groups.map fun g => (g.1, g.2.filter (· ≠ e.seq))).filter fun g => g.2 ≠ []

/-- An index field, if it is there. -/
def optMapPy (f : Int → Py Int) : Option Int → Py (Option Int)
  | none => .ok none
  | some i => do
    let j ← f i
    pure (some j)

/-- The body of the loops spdy4_codec_impl.py 852-856 and 867-871. -/
def translateOp (f : Int → Py Int) (op : Op) : Py Op := do
  let i ← optMapPy f op.index
  let s ← optMapPy f op.indexStart
  pure { op with index := i, indexStart := s }

/-- The loops spdy4_codec_impl.py 852-856 and 867-871. -/
def translateOps (f : Int → Py Int) : List Op → Py (List Op)
  | [] => .ok []
  | op :: ops => do
    let op ← translateOp f op
    let ops ← translateOps f ops
    pure (op :: ops)

/-- spdy4_codec_impl.py 847-850: a dictionary of operations. -/
def translateGroups (f : Int → Py Int) : Groups → Py Groups
  | [] => .ok []
  | (oc, ops) :: gs => do
    let ops ← translateOps f ops
    let gs ← translateGroups f gs
    pure ((oc, ops) :: gs)

/-- spdy4_codec_impl.py 843-856, TranslateOpIdxFromHgToLru of a dictionary. -/
def hgToLru (cfg : Config) (st : Storage) (gs : Groups) : Py Groups :=
  if cfg.fromEnd then translateGroups (hgIdxToLruIdx st) gs else .ok gs

/-- spdy4_codec_impl.py 858-871, TranslateOpIdxFromLruToHg of a list. -/
def lruToHg (cfg : Config) (st : Storage) (ops : List Op) : Py (List Op) :=
  if cfg.fromEnd then translateOps (lruIdxToHgIdx st) ops else .ok ops

/-- spdy4_codec_impl.py 952-957, FindOrMakeHeaderGroup; the group itself is `group s gid` afterwards. -/
def findOrMake (s : Codec) (gid : Nat) : Codec :=
  if s.groups.has gid then s else { s with groups := s.groups.set gid [] }

/-- The set of a header group that exists. -/
def Codec.group (s : Codec) (gid : Nat) : List Int := (s.groups.get? gid).getD []

/-- spdy4_codec_impl.py 354-358, AppendToHeaders. -/
def appendToHeaders (headers : Dict Str Str) (key val : Str) : Dict Str Str :=
  match headers.get? key with
  | some v => headers.set key (v ++ [0] ++ val)
  | none => headers.set key val

/-! ### Executing operations -/

/-- `op['index_start']`. -/
def Op.start (op : Op) : Py Int :=
  match op.indexStart with
  | some i => .ok i
  | none => .error .key

/-- `op['key']`. -/
def Op.theKey (op : Op) : Py Str :=
  match op.key with
  | some s => .ok s
  | none => .error .key

/-- `op['val']`. -/
def Op.theVal (op : Op) : Py Str :=
  match op.val with
  | some s => .ok s
  | none => .error .key

/-- The integers from `a` up to and without `b`. -/
def xrange (a b : Int) : List Int := (List.range (b - a).toNat).map fun k : Nat => a + (k : Int)

/-- `xrange(a, b)` of Python 2 with C longs of 64 bits: OverflowError if a bound, or the number of integers, does not fit. -/
def xrangePy (a b : Int) : Py (List Int) :=
  if -2 ^ 63 ≤ a ∧ a < 2 ^ 63 ∧ -2 ^ 63 ≤ b ∧ b < 2 ^ 63 ∧ b - a < 2 ^ 63 then .ok (xrange a b) else .error .overflow

/-- The local variables of the loop spdy4_codec_impl.py 1051-1091; the storage changes in the counts only. -/
structure Exec where
  storage : Storage
  headers : Dict Str Str := []
  stoggles : List Int := []
  etoggles : List Int := []
  later : List KV := []
  deriving DecidableEq, Repr

/-- spdy4_codec_impl.py 1051-1091, one operation. -/
def execOp (e : Exec) (op : Op) : Py Exec :=
  match op.opcode with
  | .stoggl => do
    let i ← op.idx
    pure { e with stoggles := toggleSet e.stoggles i }
  | .etoggl => do
    let i ← op.idx
    pure { e with etoggles := toggleSet e.etoggles i }
  | .strang => do
    let last ← op.idx
    let start ← op.start
    let is ← xrangePy start (last + 1)
    pure { e with stoggles := is.foldl toggleSet e.stoggles }
  | .etrang => do
    let last ← op.idx
    let start ← op.start
    let is ← xrangePy start (last + 1)
    pure { e with etoggles := is.foldl toggleSet e.etoggles }
  | .sclone => do
    let i ← op.idx
    let val ← op.theVal
    let entry ← lookupFromIdx e.storage i
    let r := kvShareKey e.storage.counts entry.kv val
    pure { e with
      headers := appendToHeaders e.headers entry.kv.key val
      later := e.later ++ [r.2]
      storage := { e.storage with counts := r.1 } }
  | .eclone => do
    let i ← op.idx
    let val ← op.theVal
    let entry ← lookupFromIdx e.storage i
    pure { e with headers := appendToHeaders e.headers entry.kv.key val }
  | .skvsto => do
    let key ← op.theKey
    let val ← op.theVal
    let r := kvNew e.storage.counts key val
    pure { e with
      headers := appendToHeaders e.headers key val
      later := e.later ++ [r.2]
      storage := { e.storage with counts := r.1 } }
  | .ekvsto => do
    let key ← op.theKey
    let val ← op.theVal
    pure { e with headers := appendToHeaders e.headers key val }

/-- The loop spdy4_codec_impl.py 1051-1091. -/
def execOps : List Op → Exec → Py Exec
  | [], e => .ok e
  | op :: ops, e => do
    let e ← execOp e op
    execOps ops e

/-- The loop spdy4_codec_impl.py 1103-1105. -/
def refHeaders (st : Storage) : List Int → Dict Str Str → Py (Dict Str Str)
  | [], h => .ok h
  | i :: is, h => do
    let e ← lookupFromIdx st i
    refHeaders st is (appendToHeaders h e.kv.key e.kv.val)

/-- The loop spdy4_codec_impl.py 1109-1111. -/
def lookupAll (st : Storage) : List Int → Py (List (KV × Int))
  | [] => .ok []
  | i :: is => do
    let e ← lookupFromIdx st i
    let es ← lookupAll st is
    pure ((e.kv, i) :: es)

/-- spdy4_codec_impl.py 1107-1111. -/
def adjustList (cfg : Config) (st : Storage) (hg : List Int) : Py (List (KV × Int)) :=
  if cfg.hgAdjust then lookupAll st (sortBy (fun a b => decide (a ≤ b)) hg) else .ok []

/-- spdy4_codec_impl.py 1038-1041, Store, with the callback for the removed entries. -/
def storeKV (cfg : Config) (s : Codec) (kv : KV) : Py (Codec × Option Int) := do
  let r := if cfg.refcntVals then kvShare s.storage.counts kv else kvShareKey s.storage.counts kv kv.val
  let (st, popped, i) ← insertVal { s.storage with counts := r.1 } r.2
  pure ({ storage := st, groups := popped.foldl removeVIdx s.groups }, i)

/-- Changing the current header group, if it is still there. -/
def changeGroup (s : Codec) (gid : Nat) (f : List Int → List Int) : Codec :=
  match s.groups.get? gid with
  | none => s
  | some hg => { s with groups := s.groups.set gid (f hg) }

/-- Adding the new index, if there is one. -/
def addIdx (s : Codec) (gid : Nat) : Option Int → Codec
  | none => s
  | some i => changeGroup s gid (addSet · i)

/-- The loop spdy4_codec_impl.py 1113-1116. -/
def storeLater (cfg : Config) (gid : Nat) : List KV → Codec → Py Codec
  | [], s => .ok s
  | kv :: kvs, s => do
    let (s, i) ← storeKV cfg s kv
    storeLater cfg gid kvs (if cfg.implicitAdd then addIdx s gid i else s)

/-- The loop spdy4_codec_impl.py 1118-1123. -/
def adjustLater (cfg : Config) (gid : Nat) : List (KV × Int) → Codec → Py Codec
  | [], s => .ok s
  | (kv, old) :: kvs, s => do
    let (s, i) ← storeKV cfg (changeGroup s gid fun hg => hg.filter (· ≠ old)) kv
    adjustLater cfg gid kvs (addIdx s gid i)

/-- spdy4_codec_impl.py 1124-1125; `replace` of one character. -/
def fixCookie (headers : Dict Str Str) : Dict Str Str :=
  match headers.get? b!"cookie" with
  | some v => headers.set b!"cookie" (v.flatMap fun c => if c = 0 then b!"; " else [c])
  | none => headers

/-- spdy4_codec_impl.py 1043-1126, DecompressorExecuteOps.  `ord` is the order of `kv_references`. -/
def execute (cfg : Config) (ord : List Int → List Int) (s : Codec) (ops : List Op) (gid : Nat) :
    Py (Codec × Dict Str Str) := do
  let s := findOrMake s gid
  let ops ← lruToHg cfg s.storage ops
  let e ← execOps ops { storage := s.storage }
  let hg := symDiff (s.group gid) e.stoggles
  let refs := symDiff e.etoggles hg
  let headers ← refHeaders e.storage (ord refs) e.headers
  let adjust ← adjustList cfg e.storage hg
  let s ← storeLater cfg gid e.later { storage := e.storage, groups := s.groups.set gid hg }
  let s ← adjustLater cfg gid adjust s
  pure (s, fixCookie headers)

/-! ### Making operations -/

/-- Iteration orders for one message: of the header group, of `headers_set`, of `full_toggl_list`, of the
dictionary of instructions, and of `kv_references` in the compressor and in the decompressor. -/
structure Orders where
  hg : List Int → List Int
  hset : List Hdr → List Hdr
  toggl : List Int → List Int
  instr : Groups → Groups
  refsC : List Int → List Int
  refsD : List Int → List Int

/-- Each order lists the same elements. -/
structure Orders.Ok (o : Orders) : Prop where
  hg : ∀ l, (o.hg l).Perm l
  hset : ∀ l, (o.hset l).Perm l
  toggl : ∀ l, (o.toggl l).Perm l
  instr : ∀ l, (o.instr l).Perm l
  refsC : ∀ l, (o.refsC l).Perm l
  refsD : ∀ l, (o.refsD l).Perm l

/-- spdy4_codec_impl.py 971-976: the pieces of one header. -/
def splitHeader (kv : Hdr) : List Hdr :=
  if kv.1 = b!"cookie" then (splitOn 59 kv.2).map fun x => (kv.1, stripSpace x)
  else (splitOn 0 kv.2).map fun x => (kv.1, stripSpace x)

/-- spdy4_codec_impl.py 967-976: `headers_set`. -/
def headersSet (headers : Dict Str Str) : List Hdr := (headers.flatMap splitHeader).foldl addSet []

/-- The loop spdy4_codec_impl.py 979-988: `headers_set` and `done_set` (`keep_set` is not used). -/
def hgLoop (st : Storage) : List Int → List Hdr → List Int → Py (List Hdr × List Int)
  | [], hs, done => .ok (hs, done)
  | i :: is, hs, done => do
    let e ← lookupFromIdx st i
    if (e.kv.key, e.kv.val) ∈ hs then hgLoop st is (hs.filter (· ≠ (e.kv.key, e.kv.val))) done
    else hgLoop st is hs (addSet done i)

/-- The operations collected by the loop spdy4_codec_impl.py 991-1008. -/
structure Made where
  stoggls : List Int := []
  etoggl : List Op := []
  sclone : List Op := []
  eclone : List Op := []
  skvsto : List Op := []
  deriving DecidableEq, Repr

/-- spdy4_codec_impl.py 991-1008, one header. -/
def makeOne (cfg : Config) (st : Storage) (m : Made) (kv : Hdr) : Made :=
  match findEntryIdx st kv.1 kv.2 with
  | (_, some v) =>
    if cfg.onlyEtoggles then { m with etoggl := m.etoggl ++ [{ opcode := .etoggl, index := some v }] }
    else { m with stoggls := addSet m.stoggls v }
  | (some k, none) =>
    if kv.1 = b!":path" then
      { m with eclone := m.eclone ++ [{ opcode := .eclone, index := some k, val := some kv.2 }] }
    else { m with sclone := m.sclone ++ [{ opcode := .sclone, index := some k, val := some kv.2 }] }
  | (none, none) => { m with skvsto := m.skvsto ++ [{ opcode := .skvsto, key := some kv.1, val := some kv.2 }] }

/-- spdy4_codec_impl.py 959-1018, the instructions before the translation of the indices. -/
def makeInstructions (cfg : Config) (o : Orders) (s : Codec) (headers : Dict Str Str) (gid : Nat) : Py Groups := do
  let (hs, done) ← hgLoop s.storage (o.hg (s.group gid)) (headersSet headers) []
  let m := (o.hset hs).foldl (makeOne cfg s.storage) {}
  let full := done.foldl addSet m.stoggls
  let stoggl := (o.toggl full).map fun i => { opcode := .stoggl, index := some i }
  let (et, etr) ← figureOutRanges m.etoggl .etrang
  let (t, tr) ← figureOutRanges stoggl .strang
  pure (o.instr [(.stoggl, t), (.etoggl, et), (.sclone, m.sclone), (.eclone, m.eclone), (.skvsto, m.skvsto), (.ekvsto, []),
    (.etrang, etr), (.strang, tr)])

/-- spdy4_codec_impl.py 959-1027, MakeOperations. -/
def makeOperations (cfg : Config) (o : Orders) (s : Codec) (headers : Dict Str Str) (gid : Nat) : Py (Codec × Groups) := do
  let s := findOrMake s gid
  let gs ← makeInstructions cfg o s headers gid
  let gs ← hgToLru cfg s.storage gs
  let (s, _) ← execute cfg o.refsC s (gs.flatMap (·.2)) gid
  pure (s, gs)

/-- spdy4_codec_impl.py 1029-1036, RealOpsToOpAndExecute. -/
def executeReal (cfg : Config) (p : Packing) (ord : List Int → List Int) (s : Codec) (blob : Str) :
    Py (Codec × Dict Str Str) := do
  let (gid, ops) ← realOpsToOps p blob
  execute cfg ord (findOrMake s gid) ops gid

/-! ### The Processor -/

/-- What is fixed when a Processor is made: the parameters, the Huffman coder, and the regular expression of line 49-50,
as a function. -/
structure Setup where
  cfg : Config
  huffman : Huffman
  norm : Str → Str

/-- The packing of a Processor's codecs. -/
def Setup.packing (u : Setup) : Packing := { ints := u.cfg.ints, huff := some u.huffman }

/-- What `compress` changes, __init__.py 29-36. -/
structure Compressor where
  codec : Codec
  hosts : Dict Str Nat := []
  ids : IdStore := { maxId := 255 }
  deriving DecidableEq, Repr

/-- __init__.py 49-56: the group of a host.  No id is ever given back. -/
def groupOf (u : Setup) (c : Compressor) (host : Str) : Compressor × Nat :=
  match c.hosts.get? (u.norm host) with
  | some gid => (c, gid)
  | none =>
    let r := getNext id c.ids
    ({ c with ids := r.1, hosts := c.hosts.set (u.norm host) r.2 }, r.2)

/-- __init__.py 48-60, compress. -/
def compress (u : Setup) (o : Orders) (c : Compressor) (headers : Dict Str Str) (host : Str) : Py (Compressor × Str) := do
  let r := groupOf u c host
  let (codec, gs) ← makeOperations u.cfg o r.1.codec headers r.2
  let blob ← opsToRealOps u.packing gs r.2
  pure ({ r.1 with codec := codec }, blob)

/-- __init__.py 62-66, decompress. -/
def decompress (u : Setup) (o : Orders) (s : Codec) (blob : Str) : Py (Codec × Dict Str Str) :=
  executeReal u.cfg u.packing o.refsD s blob

/-- A message of a session. -/
structure Message where
  headers : Dict Str Str
  host : Str
  orders : Orders

/-- Compressing some messages; the state afterwards, and the blobs.  The Processor keeps the state of `decompress` apart, so
this is what happens to the compressor when the blobs are decompressed in between. -/
def compressAll (u : Setup) : List Message → Compressor → Py (Compressor × List Str)
  | [], c => .ok (c, [])
  | m :: ms, c => do
    let (c, blob) ← compress u m.orders c m.headers m.host
    let (c, blobs) ← compressAll u ms c
    pure (c, blob :: blobs)

/-- Decompressing some blobs. -/
def decompressAll (u : Setup) : List (Orders × Str) → Codec → Py (Codec × List (Dict Str Str))
  | [], d => .ok (d, [])
  | (o, blob) :: blobs, d => do
    let (d, out) ← decompress u o d blob
    let (d, outs) ← decompressAll u blobs d
    pure (d, out :: outs)

end Verif.Delta2
