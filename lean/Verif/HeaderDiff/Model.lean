import Verif.HeaderDiff.Huffman
/-
Model of compressor/headerdiff/headerDiffCodec.py.

* `encodedStream` only grows: a function that writes returns the bytes it appends.  `decodedStream` and
  `decodedStreamIndex` become the bytes that remain to be read.
* A codec is made for one direction and its methods are always called with the same `isRequest`
  (__init__.py 137, 144, 148), so only the tables of names of that direction are kept.
* `windowSize` is `None` (the default); the Deflate layer (zlib) is in `Deflate.lean`.
* An IndexedHeader is shared between the table and a HeaderRepresentation; the model changes it in the table,
  where it is found again by its `full`.
* An exception leaves the encoder with the changes made so far, so encoding returns a state in any case.
* The order in which a dictionary is iterated may depend on all that happened before.  It is a parameter that
  also gets the number of headers encoded so far.
-/
namespace Verif.HeaderDiff
open Verif

/-! ### Prefixes -/

/-- headerDiffCodec.py 44-49, common_prefix. -/
def commonPrefix : Str → Str → Nat
  | a :: s, b :: t => if a ≠ b then 0 else commonPrefix s t + 1
  | _, _ => 0

/-- headerDiffCodec.py 53-58: the loop of common_prefix_limited, from `i` down. -/
def limitedLoop (s1 limits : Str) : Nat → Nat
  | 0 => 0
  | i + 1 => if (s1[i]?).any (limits.contains ·) then i + 1 else limitedLoop s1 limits i

/-- headerDiffCodec.py 51-58, common_prefix_limited. -/
def commonPrefixLimited (s1 s2 limits : Str) : Nat := limitedLoop s1 limits (commonPrefix s1 s2)

/-! ### State -/

/-- headerDiffCodec.py 60-74, IndexedHeader. -/
structure Entry where
  name : Str
  value : Str
  index : Nat
  age : Nat := 0
  deltaUsage : Nat := 0
  deriving DecidableEq, Repr

/-- headerDiffCodec.py 70, the attribute `full`. -/
def Entry.full (e : Entry) : Str := e.name ++ e.value

/-- headerDiffCodec.py 38-42: the kinds of delta coding with their parameters. -/
inductive DeltaType where
  | full
  | bound (limits : Str)
  | max (n : Int)
  deriving DecidableEq, Repr

/-- headerDiffCodec.py 92-119: the parameters of a codec.  `huffman` is the coder of its direction, if used. -/
structure Cfg where
  maxSize : Int
  deltaUsage : Bool
  deltaType : DeltaType
  huffman : Option HCodec
  isRequest : Bool
  deriving DecidableEq, Repr

/-- headerDiffCodec.py 138-150: the variables of the encoder. -/
structure Enc where
  table : Dict Str Entry
  size : Int
  names : Dict Str Nat
  ticks : Nat
  deriving DecidableEq, Repr

/-- headerDiffCodec.py 151-164: the variables of the decoder. -/
structure Dec where
  headers : List Hdr
  size : Int
  names : List Str
  deriving DecidableEq, Repr

/-- headerDiffCodec.py 630-671, REGISTERED_HEADERS_REQUESTS. -/
def registeredRequests : List Str :=
  [b!"accept", b!"accept-charset", b!"accept-encoding", b!"accept-language", b!"cookie", b!":method", b!"host",
   b!"if-modified-since", b!"keep-alive", b!":host", b!":scheme", b!":path", b!"user-agent", b!":version",
   b!"proxy-connection", b!"referer", b!"accept-datetime", b!"authorization", b!"allow", b!"cache-control",
   b!"connection", b!"content-length", b!"content-md5", b!"content-type", b!"date", b!"expect", b!"from",
   b!"if-match", b!"if-none-match", b!"if-range", b!"if-unmodified-since", b!"max-forwards", b!"pragma",
   b!"proxy-authorization", b!"range", b!"te", b!"upgrade", b!"via", b!"warning"]

/-- headerDiffCodec.py 673-714, REGISTERED_HEADERS_RESPONSES. -/
def registeredResponses : List Str :=
  [b!"age", b!"cache-control", b!"content-length", b!"content-type", b!"date", b!"etag", b!"expires",
   b!"last-modified", b!"server", b!"set-cookie", b!":status", b!"vary", b!":version", b!"via", b!":status-text",
   b!"access-control-allow-origin", b!"accept-ranges", b!"allow", b!"connection", b!"content-disposition",
   b!"content-encoding", b!"content-language", b!"content-location", b!"content-md5", b!"content-range", b!"link",
   b!"location", b!"p3p", b!"pragma", b!"proxy-authenticate", b!"refresh", b!"retry-after",
   b!"strict-transport-security", b!"trailer", b!"transfer-encoding", b!"warning", b!"www-authenticate"]

/-- The registered names of the direction of a codec. -/
def registered (isRequest : Bool) : List Str := if isRequest then registeredRequests else registeredResponses

/-- headerDiffCodec.py 147-150: `table[name] = i` for each name. -/
def numberNames : List Str → Nat → Dict Str Nat → Dict Str Nat
  | [], _, d => d
  | n :: ns, i, d => numberNames ns (i + 1) (Dict.set d n i)

/-- headerDiffCodec.py 138-150, initCodec, the encoder's part. -/
def Enc.init (cfg : Cfg) : Enc :=
  { table := [], size := 0, names := numberNames (registered cfg.isRequest) 0 [], ticks := 0 }

/-- headerDiffCodec.py 151-164, initCodec, the decoder's part. -/
def Dec.init (cfg : Cfg) : Dec := { headers := [], size := 0, names := registered cfg.isRequest }

/-! ### Integers and strings -/

/-- headerDiffCodec.py 619, MAX_VALUES. -/
def maxValues : Dict Nat Nat := [(0, 0x00), (4, 0x0f), (5, 0x1f), (6, 0x3f), (8, 0xff), (14, 0x3fff)]

/-- `MAX_VALUES[k]`. -/
def maxValue (k : Nat) : Py Nat :=
  match Dict.get? maxValues k with
  | none => .error .key
  | some m => .ok m

/-- headerDiffCodec.py 590-599: the loop of writeInteger.  The first argument bounds the number of turns. -/
def writeLoop : Nat → Nat → Py (List Nat)
  | 0, _ => .error .outOfFuel
  | fuel + 1, v =>
    if v > 0 then do
      let q := v / 128
      let r := v - q * 128
      let b := if q > 0 then 0x80 else 0
      let out ← packB (b ||| r)
      let rest ← writeLoop fuel q
      .ok (out ++ rest)
    else .ok []

/-- headerDiffCodec.py 580-583: the full prefix, if there is one. -/
def writeFull (currentByte prefixBits m : Nat) : Py (List Nat) :=
  if prefixBits > 0 then packB (currentByte ||| m) else .ok []

/-- headerDiffCodec.py 586-599: what the prefix cannot hold. -/
def writeTail (v : Nat) : Py (List Nat) := if v = 0 then packB 0 else writeLoop (v + 1) v

/-- headerDiffCodec.py 565-599, writeInteger. -/
def writeInteger (currentByte prefixBits v : Nat) : Py (List Nat) := do
  let m ← maxValue prefixBits
  if v < m then
    if prefixBits ≤ 8 then packB (currentByte ||| v)
    else packH (((currentByte ||| (v >>> 8)) <<< 8) ||| (v &&& 0xff))
  else do
    let first ← writeFull currentByte prefixBits m
    let rest ← writeTail (v - m)
    .ok (first ++ rest)

/-- headerDiffCodec.py 292-298, readNextByte. -/
def readByte : List Nat → Py (Nat × List Nat)
  | [] => .error .index
  | b :: s => .ok (b, s)

/-- headerDiffCodec.py 317-323: the loop of readInteger (with the reads at its start and end). -/
def readLoop : List Nat → Nat → Nat → Py (Nat × List Nat)
  | [], _, _ => .error .index
  | b :: s, value, f =>
    if b &&& 0x80 > 0 then readLoop s (value + (b &&& 0x7f) * f) (f * 128)
    else .ok (value + b * f, s)

/-- headerDiffCodec.py 309-313: the value of the prefix. -/
def readPrefix (currentByte prefixBits : Nat) (s : List Nat) : Py (Nat × List Nat) :=
  if prefixBits ≤ 8 then do
    let m ← maxValue prefixBits
    .ok (currentByte &&& m, s)
  else do
    let m ← maxValue (prefixBits - 8)
    let (b, s) ← readByte s
    let m8 ← maxValue 8
    .ok (((currentByte &&& m) <<< 8) ||| (b &&& m8), s)

/-- headerDiffCodec.py 302-325, readInteger. -/
def readInteger (currentByte prefixBits : Nat) (s : List Nat) : Py (Nat × List Nat) := do
  let (value, s) ← readPrefix currentByte prefixBits s
  let m ← maxValue prefixBits
  if value = m then readLoop s m 1 else .ok (value, s)

/-- headerDiffCodec.py 601-614, writeLiteralString. -/
def writeString (cfg : Cfg) (s : Str) : Py (List Nat) :=
  match cfg.huffman with
  | some h => h.encode s
  | none => do
    let n ← writeInteger 0 0 s.length
    .ok (n ++ s)

/-- headerDiffCodec.py 327-343, readLiteralString. -/
def readString (cfg : Cfg) (s : List Nat) : Py (Str × List Nat) :=
  match cfg.huffman with
  | some h => do
    let (value, length) ← h.decode s
    .ok (value, s.drop length)
  | none => do
    let (length, s) ← readInteger 0 0 s
    .ok (s.take length, s.drop length)

/-! ### The choice of a representation -/

/-- headerDiffCodec.py 621-623. -/
inductive Kind where
  | literal
  | indexed
  | delta
  deriving DecidableEq, Repr

/-- headerDiffCodec.py 625-627. -/
inductive Indexing where
  | none
  | incremental
  | substitution
  deriving DecidableEq, Repr

/-- headerDiffCodec.py 76-86, HeaderRepresentation. -/
structure HR where
  kind : Kind := .literal
  reference : Option Entry := none
  indexing : Indexing := .none
  prefixLength : Nat := 0
  deriving DecidableEq, Repr

/-- The iteration order of the table of the encoder: how it is, given how many headers were encoded before. -/
abbrev Order := Nat → Dict Str Entry → List (Str × Entry)

/-- headerDiffCodec.py 499-507: the length of the prefix shared with an indexed value. -/
def sharedPrefix (t : DeltaType) (value iv : Str) : Nat :=
  match t with
  | .full => commonPrefix value iv
  | .bound limits => commonPrefixLimited value iv limits
  | .max _ => commonPrefix value iv

/-- headerDiffCodec.py 495: an entry that was used often enough. -/
def usedUp (t : DeltaType) (e : Entry) : Bool :=
  match t with
  | .max n => decide ((e.deltaUsage : Int) ≥ n)
  | _ => false

/-- headerDiffCodec.py 491-512: the loop over the table; the longest prefix and the header to refer to. -/
def bestLoop (t : DeltaType) (name value : Str) : List (Str × Entry) → Nat → Option Entry → Nat × Option Entry
  | [], best, ref => (best, ref)
  | (_, e) :: l, best, ref =>
    if e.name = name then
      if usedUp t e then bestLoop t name value l best ref
      else
        let k := sharedPrefix t value e.value
        if k ≥ best then bestLoop t name value l k (some e) else bestLoop t name value l best ref
    else bestLoop t name value l best ref

/-- headerDiffCodec.py 543-553: the loop for the least recently used header. -/
def lruLoop (value : Str) (remaining : Int) : List (Str × Entry) → Option Entry → Option Entry
  | [], lruh => lruh
  | (_, e) :: l, lruh =>
    if e.age > 1 then
      if (value.length : Int) - e.value.length < remaining then
        match lruh with
        | none => lruLoop value remaining l (some e)
        | some old => if e.age > old.age then lruLoop value remaining l (some e) else lruLoop value remaining l lruh
      else lruLoop value remaining l lruh
    else lruLoop value remaining l lruh

/-- headerDiffCodec.py 482-559: the part of determineRepresentation for a header that is not indexed. -/
def chooseNew (order : Order) (cfg : Cfg) (st : Enc) (name value : Str) : HR :=
  if !cfg.deltaUsage && name == b!":path" then {}
  else
    let (best, ref) := if cfg.deltaUsage then bestLoop cfg.deltaType name value (order st.ticks st.table) 0 none else (0, none)
    let added : Int := match ref with
      | none => 0
      | some e => (value.length : Int) - e.value.length
    let lengthOK := st.size + value.length < cfg.maxSize
    let substitutionOK := st.size + added < cfg.maxSize
    let requireNovelty := cfg.isRequest ∧ cfg.maxSize < 10000
    if best > 1 then
      let isNovel := ¬ requireNovelty ∨ added > 15
      if isNovel ∧ lengthOK then { kind := .delta, reference := ref, prefixLength := best, indexing := .incremental }
      else if substitutionOK then { kind := .delta, reference := ref, prefixLength := best, indexing := .substitution }
      else { kind := .delta, reference := ref, prefixLength := best }
    else if lengthOK then { indexing := .incremental }
    else
      match lruLoop value (cfg.maxSize - st.size) (order st.ticks st.table) none with
      | some e => { indexing := .substitution, reference := some e }
      | none => {}

/-- headerDiffCodec.py 467-561, determineRepresentation. -/
def determine (order : Order) (cfg : Cfg) (st : Enc) (name value : Str) : Enc × HR :=
  match Dict.get? st.table (name ++ value) with
  | some e =>
    ({ st with table := Dict.set st.table (name ++ value) { e with age := 0 } },
      { kind := .indexed, reference := some { e with age := 0 } })
  | none => (st, chooseNew order cfg st name value)

/-! ### The encoder -/

/-- headerDiffCodec.py 378-386: an indexed representation. -/
def writeIndexed (e : Entry) : Py (List Nat) :=
  if e.index < 64 then packB (0x80 ||| e.index) else writeInteger 0xc0 14 (e.index - 64)

/-- headerDiffCodec.py 398-420: the change of the table. -/
def applyIndexing (st : Enc) (name value : Str) (hr : HR) : Py (Enc × Nat) :=
  match hr.indexing with
  | .substitution =>
    match hr.reference with
    | none => .error .attribute
    | some ref =>
      .ok ({ st with table := Dict.set (Dict.del st.table ref.full) (name ++ value) { name, value, index := ref.index },
                     size := st.size - ref.value.length + value.length }, 0x30)
  | .incremental =>
    .ok ({ st with table := Dict.set st.table (name ++ value) { name, value, index := st.table.length },
                   size := st.size + value.length }, 0x20)
  | .none => .ok (st, 0)

/-- headerDiffCodec.py 434, `hr.referenceHeader.delta_usage += 1`: seen only if the header is still in the table. -/
def countUsage (st : Enc) (ref : Entry) : Enc :=
  match Dict.get? st.table ref.full with
  | none => st
  | some e => { st with table := Dict.set st.table ref.full { e with deltaUsage := e.deltaUsage + 1 } }

/-- headerDiffCodec.py 425-434: the delta representation up to the value.  The writes come before the count. -/
def writeDelta (st : Enc) (b prefixBits : Nat) (hr : HR) : Enc × Py (List Nat) :=
  match hr.reference with
  | none => (st, .error .attribute)
  | some ref =>
    let out : Py (List Nat) := do
      let x ← writeInteger (b ||| 0x40) prefixBits ref.index
      let y ← writeInteger (b ||| 0x40) 0 hr.prefixLength
      .ok (x ++ y)
    match out with
    | .error e => (st, .error e)
    | .ok out => (countUsage st ref, .ok out)

/-- headerDiffCodec.py 440-449: the name of a literal representation. -/
def writeName (cfg : Cfg) (st : Enc) (b prefixBits : Nat) (name : Str) : Enc × Py (List Nat) :=
  match Dict.get? st.names name with
  | some i => (st, writeInteger b prefixBits (i + 1))
  | none =>
    let out : Py (List Nat) := do
      let x ← writeInteger b prefixBits 0
      let y ← writeString cfg name
      .ok (x ++ y)
    match out with
    | .error e => (st, .error e)
    | .ok out => ({ st with names := Dict.set st.names name st.names.length }, .ok out)

/-- headerDiffCodec.py 435-453: the literal representation up to the value. -/
def writeLiteral (cfg : Cfg) (st : Enc) (b prefixBits : Nat) (name : Str) (hr : HR) : Enc × Py (List Nat) :=
  match writeName cfg st b prefixBits name with
  | (st, .error e) => (st, .error e)
  | (st, .ok x) =>
    if hr.indexing = .substitution then
      match hr.reference with
      | none => (st, .error .attribute)
      | some ref =>
        (st, do
          let y ← writeInteger b 0 ref.index
          .ok (x ++ y))
    else (st, .ok x)

/-- headerDiffCodec.py 387-459: a representation that is not indexed. -/
def writeNew (cfg : Cfg) (st : Enc) (name value : Str) (hr : HR) : Enc × Py (List Nat) :=
  let prefixBits := if hr.indexing ≠ .none then 4 else 5
  match applyIndexing st name value hr with
  | .error e => (st, .error e)
  | .ok (st, b) =>
    let delta := cfg.deltaUsage && hr.kind == .delta
    match (if delta then writeDelta st b prefixBits hr else writeLiteral cfg st b prefixBits name hr) with
    | (st, .error e) => (st, .error e)
    | (st, .ok x) =>
      (st, do
        let y ← writeString cfg (if delta then value.drop hr.prefixLength else value)
        .ok (x ++ y))

/-- headerDiffCodec.py 362-459: one header. -/
def encodeHeader (order : Order) (cfg : Cfg) (st : Enc) (h : Hdr) : Enc × Py (List Nat) :=
  match determine order cfg st h.1 h.2 with
  | (st, hr) =>
    let st := { st with ticks := st.ticks + 1 }
    if hr.kind = .indexed then
      match hr.reference with
      | none => (st, .error .attribute)
      | some e => (st, writeIndexed e)
    else writeNew cfg st h.1 h.2 hr

/-- headerDiffCodec.py 362-459: all headers. -/
def encodeLoop (order : Order) (cfg : Cfg) : Enc → List Hdr → Enc × Py (List Nat)
  | st, [] => (st, .ok [])
  | st, h :: hs =>
    match encodeHeader order cfg st h with
    | (st, .error e) => (st, .error e)
    | (st, .ok x) =>
      match encodeLoop order cfg st hs with
      | (st, .error e) => (st, .error e)
      | (st, .ok y) => (st, .ok (x ++ y))

/-- headerDiffCodec.py 463-465: the frame. -/
def frame (data : List Nat) : Py (List Nat) := do
  let n ← packH data.length
  let a ← packB 0
  let b ← packB 0
  let c ← packL 0
  .ok (n ++ a ++ b ++ c ++ data)

/-- headerDiffCodec.py 354-355: all headers become older. -/
def grow (st : Enc) : Enc := { st with table := st.table.map fun p => (p.1, { p.2 with age := p.2.age + 1 }) }

/-- headerDiffCodec.py 349-465, encodeHeaders. -/
def encodeHeaders (order : Order) (cfg : Cfg) (st : Enc) (hs : List Hdr) : Enc × Py (List Nat) :=
  let st := grow st
  match packB hs.length with
  | .error e => (st, .error e)
  | .ok n =>
    match encodeLoop order cfg st hs with
    | (st, .error e) => (st, .error e)
    | (st, .ok x) => (st, frame (n ++ x))

/-! ### The decoder -/

/-- `l[i]` for a list and a number from the stream. -/
def item {α : Type} (l : List α) (i : Nat) : Py α :=
  match l[i]? with
  | none => .error .index
  | some a => .ok a

/-- headerDiffCodec.py 205-212: a header that is already indexed. -/
def decodeIndexed (d : Dec) (b0 : Nat) (s : List Nat) : Py (Hdr × List Nat) := do
  let (index, s) ← if b0 &&& 0x40 ≠ 0 then do
      let (i, s) ← readInteger b0 14 s
      .ok (i + 64, s)
    else .ok (b0 &&& 0x3f, s)
  let h ← item d.headers index
  .ok (h, s)

/-- headerDiffCodec.py 248-254: the name of a literal representation; the decoder with its new names. -/
def decodeName (cfg : Cfg) (d : Dec) (b0 prefixBits : Nat) (s : List Nat) : Py (Dec × Str × List Nat) := do
  let (ref, s) ← readInteger b0 prefixBits s
  if ref = 0 then do
    let (name, s) ← readString cfg s
    .ok ({ d with names := d.names ++ [name] }, name, s)
  else do
    let name ← item d.names (ref - 1)
    .ok (d, name, s)

/-- headerDiffCodec.py 276-287: the indexing mode. -/
def decodeIndexing (d : Dec) (substitution incremental : Bool) (ref : Nat) (h : Hdr) : Py Dec :=
  if substitution then do
    let old ← item d.headers ref
    .ok { d with headers := d.headers.set ref h, size := d.size + ((h.2.length : Int) - old.2.length) }
  else if incremental then .ok { d with headers := d.headers ++ [h], size := d.size + h.2.length }
  else .ok d

/-- headerDiffCodec.py 213-287: a header that is not indexed yet. -/
def decodeNew (cfg : Cfg) (d : Dec) (b0 : Nat) (s : List Nat) : Py (Dec × Hdr × List Nat) :=
  let incremental := b0 &&& 0x30 == 0x20
  let substitution := b0 &&& 0x30 == 0x30
  let prefixBits := if incremental || substitution then 4 else 5
  if b0 &&& 0x40 ≠ 0 then do
    let (ref, s) ← readInteger b0 prefixBits s
    let nameOf ← item d.headers ref
    let (prefixLength, s) ← readInteger b0 0 s
    let (rest, s) ← readString cfg s
    let old ← item d.headers ref
    let h : Hdr := (nameOf.1, old.2.take prefixLength ++ rest)
    let d ← decodeIndexing d substitution incremental ref h
    .ok (d, h, s)
  else do
    let (d, name, s) ← decodeName cfg d b0 prefixBits s
    let (ref, s) ← if substitution then readInteger b0 0 s else .ok (0, s)
    let (value, s) ← readString cfg s
    let d ← decodeIndexing d substitution incremental ref (name, value)
    .ok (d, (name, value), s)

/-- headerDiffCodec.py 187-287: one turn of the loop of decodeHeaders. -/
def decodeHeader (cfg : Cfg) (d : Dec) (s : List Nat) : Py (Dec × Hdr × List Nat) :=
  if d.size > cfg.maxSize then .error .standard
  else do
    let (b0, s) ← readByte s
    if b0 &&& 0x80 ≠ 0 then do
      let (h, s) ← decodeIndexed d b0 s
      .ok (d, h, s)
    else decodeNew cfg d b0 s

/-- headerDiffCodec.py 187-287: the loop of decodeHeaders; every turn decodes one header. -/
def decodeLoop (cfg : Cfg) : Nat → Dec → List Nat → Py (Dec × List Hdr)
  | 0, d, _ => .ok (d, [])
  | n + 1, d, s => do
    let (d, h, s) ← decodeHeader cfg d s
    let (d, hs) ← decodeLoop cfg n d s
    .ok (d, h :: hs)

/-- headerDiffCodec.py 171-290, decodeHeaders. -/
def decodeHeaders (cfg : Cfg) (d : Dec) (stream : List Nat) : Py (Dec × List Hdr) := do
  let (nb, s) ← readByte (stream.drop 8)
  decodeLoop cfg nb d s

end Verif.HeaderDiff
