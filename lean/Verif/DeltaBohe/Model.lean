import Verif.Bohe.Model
import Verif.Delta1.Wire
/-
Model of compressor/delta_bohe: spdy4_codec_impl.py (packing, the serialiser, HeaderGroup, Storage, Spdy4CoDe),
common_utils.py (IDStore), huffman.py (EncodeToBB) and the Processor in __init__.py, which only compresses.

bohe.py is the file of the same name in compressor/bohe without its last table, bit_bucket.py and header_freq_tables.py are
those of compressor/delta, huffman.py has one more test (see `encodeToBB`).

* A value entry is found in `lru`, `lru_idx_to_ve`, the `val_map` of its key and possibly in the storage of the header group.
  The entries of the constructor are in the second and third (`statics`), all others in all three (`lru`), because
  AddToHeadOfLRU follows InsertVal and RemoveVal takes them out of all.  Whether an entry is in the header group, and with
  which generation, is written next to it (`gen`), because RemoveVal is called after RemoveVEFromAllHeaderGroups only.
* The Processor uses one header group, number 0 (`generation`, `none` before it is made).
* `None` in `lru` is the pin; `pinned` is true iff there is one.
* `lru.remove(ve)` compares dictionaries; for the entries in `lru` this is the identity because they have different `lru_idx` (in
  the order of a dictionary with these keys in Python 2, the comparison ends there or before).
* `DoneWithId` is never called, so the set `ids` of an IDStore is always empty and ids are counted up.
* Where the code iterates over a dictionary with arbitrary keys the order is a parameter; a dictionary of headers is
  given in its order.
* The receiver (`DeserializeInstructions`, `RealOpsToOpAndExecute`) is not used by the Processor ("NO DECOMPRESSION YET!").
  `execOps` and `generate` are what it would do with operations, `hear` what it would do with bytes; the operations that are
  read are those of compressor/delta (`Delta1.Op`).
* Word statistics and debug output are left out.
-/
namespace Verif.DeltaBohe
open Verif Verif.Bits Verif.Huff Verif.Bohe

/-! ### Entries and storage -/

/-- spdy4_codec_impl.py 623-628, NewVE; `gen` is the generation in the header group's storage, if the entry is there. -/
structure VE where
  idx : Nat
  key : Str
  val : Str
  gen : Option Nat := none
  deriving DecidableEq, Repr

/-- spdy4_codec_impl.py 616-621, NewKE; for `val_map` see above. -/
structure KE where
  idx : Nat
  refCnt : Int := 0
  deriving DecidableEq, Repr

/-- spdy4_codec_impl.py 496-498, 553-565 and 718-722: the storage and the header group. -/
structure Codec where
  statics : List VE := []
  lru : List (Option VE) := []
  keyMap : Dict Str KE := []
  keyIdx : Dict Nat Str := []
  nextKey : Nat := 0
  nextLru : Nat := 0
  stateSize : Int := 0
  numVals : Int := 0
  generation : Option Nat := none
  deriving DecidableEq, Repr

/-- spdy4_codec_impl.py 559. -/
def maxVals : Int := 1024

/-- spdy4_codec_impl.py 560. -/
def maxStateSize : Int := 64 * 1024

/-- All entries: those in `lru_idx_to_ve`. -/
def Codec.entries (c : Codec) : List VE := c.statics ++ c.lru.filterMap id

/-- Changing the entry with the given index. -/
def Codec.update (c : Codec) (i : Nat) (f : VE → VE) : Codec :=
  let g := fun ve : VE => if ve.idx = i then f ve else ve
  { c with statics := c.statics.map g, lru := c.lru.map (Option.map g) }

/-- `ke['val_map'].get(val, None)`, spdy4_codec_impl.py 645 and 699-702. -/
def findVal (c : Codec) (key val : Str) : Option VE := c.entries.find? fun ve => ve.key = key ∧ ve.val = val

/-- spdy4_codec_impl.py 500-501, Empty, of the header group. -/
def groupEmpty (c : Codec) : Bool := c.entries.all fun ve => ve.gen.isNone

/-- spdy4_codec_impl.py 610-614, IncrementRefCnt and DecrementRefCnt. -/
def refCnt (c : Codec) (key : Str) (by_ : Int) : Codec :=
  match c.keyMap.get? key with
  | some ke => { c with keyMap := c.keyMap.set key { ke with refCnt := ke.refCnt + by_ } }
  | none => c

/-- spdy4_codec_impl.py 686-689, MaybeRemoveFromKeyMap: the condition `len(ke['val_map']) > 0 or ke['ref_cnt'] > 0`. -/
def keyNeeded (c : Codec) (key : Str) : Bool :=
  c.entries.any (·.key = key) ||
    match c.keyMap.get? key with
    | some ke => decide (ke.refCnt > 0)
    | none => false

/-- spdy4_codec_impl.py 674-694, RemoveVal of the first entry `ve` of the queue, of which `rest` remains.  The key stays in
the key map. -/
def removeVal (c : Codec) (ve : VE) (rest : List (Option VE)) : Codec :=
  let c := { c with lru := rest, stateSize := c.stateSize - ve.val.length, numVals := c.numVals - 1 }
  if keyNeeded c ve.key then c else { c with stateSize := c.stateSize - ve.key.length }

/-- spdy4_codec_impl.py 567-582, PopOne, with RemoveVEFromAllHeaderGroups (723-732).  It never returns anything but `None`.
A HeaderGroup does not support `del header_group[group_id]`. -/
def popOne (c : Codec) : Py Codec :=
  match c.lru with
  | [] => .ok c
  | none :: _ => .ok c
  | some ve :: rest =>
    let c := { c with lru := some { ve with gen := none } :: rest }
    if c.generation.isSome ∧ groupEmpty c then .error .type
    else .ok (removeVal c ve rest)

/-- spdy4_codec_impl.py 584-594, MakeSpace.  Both loops end in their first round; `PopOne` in line 593 is not defined. -/
def makeSpace (c : Codec) (space : Nat) (adding : Int) : Py Codec :=
  if c.numVals + adding > maxVals then popOne c
  else if c.stateSize + space > maxStateSize then .error .name
  else .ok c

/-- spdy4_codec_impl.py 630-641, FindOrAddKey, with NewKE and GetNext (common_utils.py 61-67). -/
def findOrAddKey (c : Codec) (key : Str) : Py Codec :=
  if c.keyMap.has key then .ok c
  else do
    let c ← makeSpace c key.length 0
    let i := c.nextKey + 1
    let c := { c with nextKey := i, keyMap := c.keyMap.set key { idx := i } }
    if c.keyIdx.has i then .error .standard
    else pure { c with keyIdx := c.keyIdx.set i key, stateSize := c.stateSize + key.length }

/-- spdy4_codec_impl.py 643-653, InsertVal.  The entry itself is put into the lists by the callers, who also give it its
index. -/
def insertVal (c : Codec) (key val : Str) : Py Codec := do
  let c ← findOrAddKey c key
  if (findVal c key val).isSome then .error .standard
  else do
    let c ← makeSpace (refCnt c key 1) val.length 1
    pure (refCnt { c with numVals := c.numVals + 1 } key (-1))

/-- spdy4_codec_impl.py 704-708, PinLRU. -/
def pin (c : Codec) : Py Codec :=
  if none ∈ c.lru then .error .standard else .ok { c with lru := c.lru ++ [none] }

/-- spdy4_codec_impl.py 710-714 (UnPinLRU; it is only called when there is a pin). -/
def unpin (c : Codec) : Codec := { c with lru := c.lru.filter (·.isSome) }

/-! ### The constructor -/

/-- spdy4_codec_impl.py 739-804: the items of `default_dict`, which is iterated in an arbitrary order. -/
def defaultDict : List Hdr :=
  [(b!"date", b!""), (b!":scheme", b!"https"), (b!":method", b!"get"), (b!":path", b!"/"), (b!":host", b!""),
   (b!"cookie", b!""), (b!":status", b!"200"), (b!":status-text", b!"OK"), (b!":version", b!"1.1"), (b!"accept", b!""),
   (b!"accept-charset", b!""), (b!"accept-encoding", b!""), (b!"accept-language", b!""), (b!"accept-ranges", b!""),
   (b!"allow", b!""), (b!"authorizations", b!""), (b!"cache-control", b!""), (b!"content-base", b!""),
   (b!"content-encoding", b!""), (b!"content-length", b!""), (b!"content-location", b!""), (b!"content-md5", b!""),
   (b!"content-range", b!""), (b!"content-type", b!""), (b!"etag", b!""), (b!"expect", b!""), (b!"expires", b!""),
   (b!"from", b!""), (b!"if-match", b!""), (b!"if-modified-since", b!""), (b!"if-none-match", b!""), (b!"if-range", b!""),
   (b!"if-unmodified-since", b!""), (b!"last-modified", b!""), (b!"location", b!""), (b!"max-forwards", b!""),
   (b!"origin", b!""), (b!"pragma", b!""), (b!"proxy-authenticate", b!""), (b!"proxy-authorization", b!""), (b!"range", b!""),
   (b!"referer", b!""), (b!"retry-after", b!""), (b!"server", b!""), (b!"set-cookie", b!""), (b!"status", b!""),
   (b!"te", b!""), (b!"trailer", b!""), (b!"transfer-encoding", b!""), (b!"upgrade", b!""), (b!"user-agent", b!""),
   (b!"vary", b!""), (b!"via", b!""), (b!"warning", b!""), (b!"www-authenticate", b!""),
   (b!"access-control-allow-origin", b!""), (b!"content-disposition", b!""), (b!"get-dictionary", b!""), (b!"p3p", b!""),
   (b!"x-content-type-options", b!""), (b!"x-frame-options", b!""), (b!"x-powered-by", b!""), (b!"x-xss-protection", b!"")]

/-- The loop spdy4_codec_impl.py 805-810: the entries are not put into `lru`. -/
def initLoop : List Hdr → Codec → Py Codec
  | [], c => .ok c
  | (k, v) :: kvs, c => do
    let c ← insertVal c k v
    let i := c.nextLru + 1
    initLoop kvs { c with nextLru := i, statics := c.statics ++ [{ idx := i, key := k, val := v }] }

/-- spdy4_codec_impl.py 718-810; `kvs` are the items of `default_dict`. -/
def Codec.init (kvs : List Hdr) : Py Codec := initLoop kvs {}

/-! ### Executing operations -/

/-- What MakeOperations returns, by opcode; `huff` of an operation is its last component. -/
structure Instrs where
  toggl : List Nat := []
  clone : List (Nat × Str × Bool) := []
  kvsto : List (Str × Str × Bool) := []
  deriving DecidableEq, Repr

/-- spdy4_codec_impl.py 539-548, 858-859 and 965-966, ExecuteToggle; the group exists. -/
def toggle (c : Codec) (i : Nat) : Py Codec :=
  match c.entries.find? (·.idx = i) with
  | none => .error .key
  | some ve =>
    match c.generation with
    | none => .error .key
    | some g => .ok (c.update i fun e => { e with gen := if ve.gen.isSome then none else some g })

/-- `toggle` for a list of indices. -/
def toggleAll : List Nat → Codec → Py Codec
  | [], c => .ok c
  | i :: is, c => do
    let c ← toggle c i
    toggleAll is c

/-- spdy4_codec_impl.py 655-662, 852-853, 979-994: storing a value, AddToHeadOfLRU (`None >= 0` is false) and TouchHeaderGroupEntry. -/
def storeEntry (c : Codec) (key val : Str) : Py Codec := do
  let c ← insertVal c key val
  let i := c.nextLru + 1
  match c.generation with
  | none => .error .key
  | some g => pure { c with nextLru := i, lru := c.lru ++ [some { idx := i, key := key, val := val, gen := some g }] }

/-- The loop over clones, spdy4_codec_impl.py 890-891 with 979-988. -/
def cloneAll : List (Nat × Str × Bool) → Codec → Py Codec
  | [], c => .ok c
  | (k, v, _) :: ops, c =>
    match c.keyIdx.get? k with
    | none => .error .standard
    | some key => do
      let c ← storeEntry c key v
      cloneAll ops c

/-- The loop over kvsto operations, spdy4_codec_impl.py 892-893 with 989-994. -/
def kvstoAll : List (Str × Str × Bool) → Codec → Py Codec
  | [], c => .ok c
  | (k, v, _) :: ops, c => do
    let c ← storeEntry c k v
    kvstoAll ops c

/-- spdy4_codec_impl.py 885-893, ExecuteInstructionsExceptERefs. -/
def executeInstrs (c : Codec) (g : Instrs) : Py Codec := do
  let c ← toggleAll g.toggl c
  let c ← cloneAll g.clone c
  kvstoAll g.kvsto c

/-! ### Making operations -/

/-- spdy4_codec_impl.py 895-909, ProcessKV. -/
def processKV (key val : Str) (c : Codec) (g : Instrs) : Py (Codec × Instrs) :=
  let huff := decide (key ∉ encoderNames)
  match c.keyMap.get? key with
  | none => .ok (c, { g with kvsto := g.kvsto ++ [(key, val, huff)] })
  | some ke =>
    match findVal c key val with
    | none => .ok (c, { g with clone := g.clone ++ [(ke.idx, val, huff)] })
    | some ve =>
      match c.generation with
      | none => .error .key
      | some gen =>
        if ve.gen.isNone then .ok (c, { g with toggl := g.toggl ++ [ve.idx] })
        else .ok (c.update ve.idx fun e => { e with gen := some gen }, g)

/-- `x <= y` for byte strings. -/
def strLe : Str → Str → Bool
  | [], _ => true
  | _ :: _, [] => false
  | x :: xs, y :: ys => x < y || (x == y && strLe xs ys)

/-- spdy4_codec_impl.py 926-927: the crumbs of a cookie. -/
def crumbs (v : Str) : List Str :=
  sortBy strLe ((splitOn 59 v).map fun x => x.dropWhile (· = 32))

/-- The loop spdy4_codec_impl.py 928-929. -/
def cookieLoop (L : Libs) (k : Str) : List Str → Codec → Instrs → Py (Codec × Instrs)
  | [], c, g => .ok (c, g)
  | x :: xs, c, g => do
    let e ← encodeField L k x
    let (c, g) ← processKV k e c g
    cookieLoop L k xs c g

/-- The loop spdy4_codec_impl.py 924-931. -/
def headersLoop (L : Libs) : List Hdr → Codec → Instrs → Py (Codec × Instrs)
  | [], c, g => .ok (c, g)
  | (k, v) :: hs, c, g =>
    if k = b!"cookie" then do
      let (c, g) ← cookieLoop L k (crumbs v) c g
      headersLoop L hs c g
    else do
      let e ← encodeField L k v
      let (c, g) ← processKV k e c g
      headersLoop L hs c g

/-- spdy4_codec_impl.py 530-534 and 861-869, FindOldEntries and DiscoverTurnOffs; `ord` is the order of the group's
storage. -/
def turnOffs (ord : List VE → List VE) (c : Codec) : List Nat :=
  ((ord (c.entries.filter fun ve => ve.gen.isSome)).filter fun ve => ve.gen ≠ c.generation).map (·.idx)

/-- Whether an element of `lru` is the entry with index `i`. -/
def isIdx (i : Nat) : Option VE → Bool
  | some ve => decide (ve.idx = i)
  | none => false

/-- spdy4_codec_impl.py 667-672 and 871-875, MoveToHeadOfLRU and RenumberVELruIdx of the entry with index `i`. -/
def renumber (c : Codec) (i : Nat) : Codec :=
  let j := c.nextLru + 1
  let c := { c with lru := c.lru.filter (fun x => !isIdx i x) ++ c.lru.filter (isIdx i) }
  { c.update i (fun e => { e with idx := j }) with nextLru := j }

/-- spdy4_codec_impl.py 877-883, AdjustHeaderGroupEntries. -/
def adjust (c : Codec) : Codec :=
  ((sortBy (fun a b => decide (a.idx ≤ b.idx)) (c.entries.filter fun ve => ve.gen.isSome)).map (·.idx)).foldl renumber c

/-- spdy4_codec_impl.py 919-923: the keys whose counter is incremented. -/
def knownKeys (c : Codec) (headers : List Hdr) : List Str := (headers.map (·.1)).filter fun k => c.keyMap.has k

/-- spdy4_codec_impl.py 845-850, FindOrMakeHeaderGroup. -/
def findOrMake (c : Codec) : Codec := { c with generation := some (c.generation.getD 0) }

/-- spdy4_codec_impl.py 911-944, MakeOperations. -/
def makeOperations (L : Libs) (ord : List VE → List VE) (c : Codec) (headers : List Hdr) : Py (Codec × Instrs) := do
  let c ← pin c
  let c := findOrMake c
  let known := knownKeys c headers
  let c := known.foldl (fun c k => refCnt c k 1) c
  let (c, g) ← headersLoop L headers c {}
  let g := { g with toggl := g.toggl ++ turnOffs ord c }
  let c ← executeInstrs c g
  let c := known.foldl (fun c k => refCnt c k (-1)) c
  let c := unpin c
  let c := { c with generation := c.generation.map (· + 1) }
  pure (adjust c, g)

/-! ### The wire -/

/-- The loop huffman.py 108-113: a symbol must write something. -/
def encodeLoop (h : Huffman) : List Nat → BitBucket → Py BitBucket
  | [], b => .ok b
  | x :: xs, b =>
    match h.codeTable[x]? with
    | none => .error .index
    | some (bytes, n) => do
      let b' ← storeBits b bytes n
      if numBits b' = numBits b then .error .standard else encodeLoop h xs b'

/-- huffman.py 102-115, EncodeToBB with the end-of-string symbol, and 117-125, Encode; the number of bits is not used. -/
def encodeStr (h : Huffman) (text : Str) : Py (List Nat) := do
  let b ← encodeLoop h text BitBucket.empty
  match h.codeTable[256]? with
  | none => .error .index
  | some (bytes, n) => do
    let b ← storeBits b bytes n
    pure b.output

/-- spdy4_codec_impl.py 179-211, PackStr with `str_pack_params`; without Huffman coding nothing marks the end. -/
def packStr (h : Huffman) (huff : Bool) (b : BitBucket) (val : Str) : Py BitBucket :=
  if huff then do
    let bytes ← encodeStr h val
    storeBits b bytes (bytes.length * 8)
  else storeBits b val (val.length * 8)

/-- An operation as it is written. -/
inductive Op where
  | toggl (index : Nat)
  | trang (start last : Nat)
  | clone (keyIdx : Nat) (val : Str) (huff : Bool)
  | kvsto (key val : Str) (huff : Bool)
  deriving DecidableEq, Repr

/-- spdy4_codec_impl.py 363-378, WriteOpData: the fields in `packing_order` (index, index_start, key_idx, key, val). -/
def writeOp (h : Huffman) (b : BitBucket) : Op → Py BitBucket
  | .toggl i => Delta2.packInt b 16 i
  | .trang s l => do
    let b ← Delta2.packInt b 16 l
    Delta2.packInt b 16 s
  | .clone k v huff => do
    let b ← Delta2.packInt b 16 k
    packStr h huff b v
  | .kvsto k v huff => do
    let b ← packStr h huff b k
    packStr h huff b v

/-- The loop spdy4_codec_impl.py 358-360. -/
def writeOps (h : Huffman) : List Op → BitBucket → Py BitBucket
  | [], b => .ok b
  | op :: ops, b => do
    let b ← writeOp h b op
    writeOps h ops b

/-- spdy4_codec_impl.py 332-360, OutputOps.  The inner loop writes all operations, so the outer loop runs at most once. -/
def outputOps (h : Huffman) (opcode : Nat) (ops : List Op) (b : BitBucket) : Py BitBucket :=
  if ops.length = 0 then .ok b
  else do
    let b ← storeBits8 b opcode
    let b ← storeBits8 b (min 256 ops.length - 1)
    writeOps h ops b

/-- spdy4_codec_impl.py 380-397, WriteControlFrameStreamId and WriteControlFrameBoilerplate; `abort` is not defined. -/
def boilerplate (b : BitBucket) (frameLen flags streamId frameType : Nat) : Py BitBucket := do
  let b ← storeBits16 b frameLen
  let b ← storeBits8 b flags
  if streamId &&& 0x80000000 ≠ 0 then .error .name
  else do
    let b ← storeBits32 b (0x80000000 ||| streamId)
    storeBits8 b frameType

/-- The loop spdy4_codec_impl.py 428-440; the payload length plus one is enough fuel if `bytesAllowed` is positive. -/
def frameLoop (streamId bytesAllowed : Nat) : Nat → BitBucket → List Nat → Nat → Py BitBucket
  | 0, _, _, _ => .error .outOfFuel
  | fuel + 1, b, payload, payloadLen => do
    let toConsume := min payloadLen bytesAllowed
    let endOfFrame := if toConsume ≤ payloadLen then 1 else 0
    let b ← boilerplate b toConsume endOfFrame streamId 8
    let b ← storeBits b payload (toConsume * 8)
    if payloadLen ≤ bytesAllowed then .ok b
    else frameLoop streamId bytesAllowed fuel b (payload.drop toConsume) (payloadLen - bytesAllowed)

/-- spdy4_codec_impl.py 399-441, SerializeInstructions; the toggles are made into ranges (PreProcessToggles, 309-330) as in
compressor/delta, and `eref` is always empty. -/
def serialize (h : Huffman) (g : Instrs) (streamId : Nat) : Py (List Nat × Int) := do
  let r := Delta1.toggleRanges g.toggl
  let b ← outputOps h 1 (r.ot.map .toggl) BitBucket.empty
  let b ← outputOps h 2 (r.otr.map fun x => .trang x.1 x.2) b
  let b ← outputOps h 3 (g.clone.map fun x => .clone x.1 x.2.1 x.2.2) b
  let payload ← outputOps h 4 (g.kvsto.map fun x => .kvsto x.1 x.2.1 x.2.2) b
  let payloadLen := (numBits payload + 7) / 8
  let frame ← boilerplate BitBucket.empty 0 0 0 0
  let bytesAllowed := 2 ^ 16 - (bytesOfStorage frame).toNat
  let b ← frameLoop streamId bytesAllowed (payloadLen.toNat + 1) BitBucket.empty payload.output payloadLen.toNat
  pure (b.output, numBits b)

/-- spdy4_codec_impl.py 228-235 and 812-816, PackOps and OpsToRealOps. -/
def opsToRealOps (h : Huffman) (g : Instrs) : Py Str := do
  let (bytes, n) ← serialize h g 1234
  let data ← storeBits BitBucket.empty bytes n.toNat
  pure data.output

/-! ### The Processor -/

/-- A message: its headers in the order of the dictionary, and the order of the group's storage. -/
structure Message where
  headers : List Hdr
  ord : List VE → List VE

/-- __init__.py 48-79, compress. -/
def compress (L : Libs) (h : Huffman) (c : Codec) (m : Message) : Py (Codec × Str) := do
  let (c, g) ← makeOperations L m.ord c m.headers
  let blob ← opsToRealOps h g
  pure (c, blob)

/-- A session. -/
def compressAll (L : Libs) (h : Huffman) : List Message → Codec → Py (Codec × List Str)
  | [], c => .ok (c, [])
  | m :: ms, c => do
    let (c, b) ← compress L h c m
    let (c, bs) ← compressAll L h ms c
    pure (c, b :: bs)

/-! ### What the receiver would do -/

/-- spdy4_codec_impl.py 946-996, the part of RealOpsToOpAndExecute after the operations have been read from the
wire, in the order in which they are written. -/
def execOps (c : Codec) (g : Instrs) : Py Codec := do
  let c ← pin c
  let c := findOrMake c
  let r := Delta1.toggleRanges g.toggl
  let c ← toggleAll (r.ot ++ r.otr.flatMap fun x => (List.range (x.2 + 1 - x.1)).map (x.1 + ·)) c
  let c ← cloneAll g.clone c
  let c ← kvstoAll g.kvsto c
  pure (unpin c)

/-- The loop spdy4_codec_impl.py 1005-1011. -/
def collect : List VE → Dict Str Str → Dict Str Str
  | [], h => h
  | ve :: ves, h =>
    match h.get? ve.key with
    | some v => collect ves (h.set ve.key (v ++ [0] ++ ve.val))
    | none => collect ves (h.set ve.key ve.val)

/-- spdy4_codec_impl.py 998-1016, GenerateAllHeaders; the group exists. -/
def generate (c : Codec) : Codec × Dict Str Str :=
  let h := collect (sortBy (fun a b => decide (a.idx ≤ b.idx)) (c.entries.filter fun ve => ve.gen.isSome)) []
  let h := match h.get? b!"cookie" with
    | some v => h.set b!"cookie" (v.flatMap fun x => if x = 0 then [59, 32] else [x])
    | none => h
  (adjust c, h)

/-- The operations a sender makes in a session (MakeOperations, as in `compress`). -/
def sendAll (L : Libs) : List Message → Codec → Py (Codec × List Instrs)
  | [], c => .ok (c, [])
  | m :: ms, c => do
    let (c, g) ← makeOperations L m.ord c m.headers
    let (c, gs) ← sendAll L ms c
    pure (c, g :: gs)

/-- spdy4_codec_impl.py 946-1016: a receiver gets the operations of all messages and makes headers of each. -/
def receiveAll : List Instrs → Codec → Py (Codec × List (Dict Str Str))
  | [], d => .ok (d, [])
  | g :: gs, d => do
    let d ← execOps d g
    let (d', hs) ← receiveAll gs (generate d).1
    pure (d', (generate d).2 :: hs)

/-! ### Reading -/

/-- The loop spdy4_codec_impl.py 453-490; the part from 462 on is that of compressor/delta (`Delta1.readBlocks`): all strings
are taken for Huffman coded. -/
def readFrames (h : Huffman) : Nat → BitBucket → List Delta1.Op → Py (List Delta1.Op)
  | 0, _, _ => .error .outOfFuel
  | fuel + 1, b, ops => do
    let (b, len) ← getBits16 b
    let (b, flags) ← getBits8 b
    let (b, _) ← getBits32 b
    let (b, _) ← getBits8 b
    let (b, ops) ← Delta1.readBlocks h (8 * b.output.length) b (len * 8 : Nat) ops
    if flags = 0 then readFrames h fuel b ops else pure ops

/-- spdy4_codec_impl.py 443-491, DeserializeInstructions, and 237-242, UnpackOps. -/
def deserialize (h : Huffman) (frame : BitBucket) : Py (List Delta1.Op) := do
  let b ← storeBits BitBucket.empty frame.output (numBits frame).toNat
  readFrames h (b.output.length + 1) b []

/-- spdy4_codec_impl.py 818-822, RealOpsToOps. -/
def realOpsToOps (h : Huffman) (realops : Str) : Py (List Delta1.Op) := do
  let b ← storeBits BitBucket.empty realops (realops.length * 8)
  deserialize h b

/-- spdy4_codec_impl.py 968-996, ExecuteOp for a group; ephemeral headers are forgotten (958-959). -/
def execOp (c : Codec) : Delta1.Op → Py Codec
  | .toggl i => toggle c i
  | .trang s l => toggleAll ((List.range (l + 1 - s)).map (s + ·)) c
  | .clone k v =>
    match c.keyIdx.get? k with
    | none => .error .standard
    | some key => storeEntry c key v
  | .kvsto k v => storeEntry c k v
  | .eref _ _ => .ok c

/-- The loop spdy4_codec_impl.py 961-962. -/
def execList : List Delta1.Op → Codec → Py Codec
  | [], c => .ok c
  | op :: ops, c => do
    let c ← execOp c op
    execList ops c

/-- spdy4_codec_impl.py 946-963, RealOpsToOpAndExecute and ExecuteOps, followed by GenerateAllHeaders (998-1016). -/
def hear (h : Huffman) (c : Codec) (bytes : Str) : Py (Codec × Dict Str Str) := do
  let ops ← realOpsToOps h bytes
  let c ← pin c
  let c ← execList ops (findOrMake c)
  pure (generate (unpin c))

/-- A session at the receiver's end. -/
def hearAll (h : Huffman) : List Str → Codec → Py (Codec × List (Dict Str Str))
  | [], c => .ok (c, [])
  | b :: bs, c => do
    let (c, x) ← hear h c b
    let (c, xs) ← hearAll h bs c
    pure (c, x :: xs)

end Verif.DeltaBohe
