import Verif.Py
/-
Model of compressor/http2/http2Codec.py (class HTTP2Codec) and of
compressor/http2/__init__.py (split_headers, join_headers, Processor).

Simplifications, all exact for the statements made:
* the encoder half and the decoder half of the object are separate values of type `Tab`
  (the Python object holds both; they share no state);
* `decoded_stream` + `decoded_stream_index` are represented by the list of unread bytes;
* a Python index result of -1 ("not found") is `none`.
-/
namespace Verif.Http2
open Verif

/-- http2Codec.py 30-38, class HeaderEntry. -/
structure HeaderEntry where
  header : Hdr
  age : Nat := 0
  referenced : Bool := false
  emitted : Bool := false
  deriving DecidableEq, Repr

/-- One side's header table: `encoder_table`, `encoder_table_size`, `max_encoder_size`
(http2Codec.py 53, 63-64) or the decoder counterparts (54, 67-68). -/
structure Tab where
  entries : List HeaderEntry
  size : Int
  max : Int
  deriving DecidableEq, Repr

/-- http2Codec.py 88-91, entry_len. -/
def entryLen (h : Hdr) : Nat := h.1.length + h.2.length + 32

/-- http2Codec.py 473-504, DEFAULT_REQUEST_HEADERS. -/
def defaultRequestHeaders : List Hdr := [
  (b!":scheme", b!"http"),
  (b!":scheme", b!"https"),
  (b!":host", b!""),
  (b!":path", b!"/"),
  (b!":method", b!"get"),
  (b!"accept", b!""),
  (b!"accept-charset", b!""),
  (b!"accept-encoding", b!""),
  (b!"accept-language", b!""),
  (b!"cookie", b!""),
  (b!"if-modified-since", b!""),
  (b!"user-agent", b!""),
  (b!"referer", b!""),
  (b!"authorization", b!""),
  (b!"allow", b!""),
  (b!"cache-control", b!""),
  (b!"connection", b!""),
  (b!"content-length", b!""),
  (b!"content-type", b!""),
  (b!"date", b!""),
  (b!"expect", b!""),
  (b!"from", b!""),
  (b!"if-match", b!""),
  (b!"if-none-match", b!""),
  (b!"if-range", b!""),
  (b!"if-unmodified-since", b!""),
  (b!"max-forwards", b!""),
  (b!"proxy-authorization", b!""),
  (b!"range", b!""),
  (b!"via", b!"")]

/-- http2Codec.py 506-537, DEFAULT_RESPONSE_HEADERS. -/
def defaultResponseHeaders : List Hdr := [
  (b!":status", b!"200"),
  (b!"age", b!""),
  (b!"cache-control", b!""),
  (b!"content-length", b!""),
  (b!"content-type", b!""),
  (b!"date", b!""),
  (b!"etag", b!""),
  (b!"expires", b!""),
  (b!"last-modified", b!""),
  (b!"server", b!""),
  (b!"set-cookie", b!""),
  (b!"vary", b!""),
  (b!"via", b!""),
  (b!"access-control-allow-origin", b!""),
  (b!"accept-ranges", b!""),
  (b!"allow", b!""),
  (b!"connection", b!""),
  (b!"content-disposition", b!""),
  (b!"content-encoding", b!""),
  (b!"content-language", b!""),
  (b!"content-location", b!""),
  (b!"content-range", b!""),
  (b!"link", b!""),
  (b!"location", b!""),
  (b!"proxy-authenticate", b!""),
  (b!"refresh", b!""),
  (b!"retry-after", b!""),
  (b!"strict-transport-security", b!""),
  (b!"transfer-encoding", b!""),
  (b!"www-authenticate", b!"")]

/-- http2Codec.py 70-86: the predefined table of either side. -/
def defaultHeaders (isRequest : Bool) : List Hdr :=
  if isRequest then defaultRequestHeaders else defaultResponseHeaders

/-- http2Codec.py 49-86, __init__ and init_codec, for one side.  `bufferSize` is whatever
`int(value)` produced, hence any integer. -/
def initTab (isRequest : Bool) (bufferSize : Int) : Tab :=
  (defaultHeaders isRequest).foldl
    (fun t h => { t with entries := t.entries ++ [{ header := h }], size := t.size + entryLen h })
    { entries := [], size := 0, max := bufferSize }

/-- http2Codec.py 539-549, MAX_VALUES (a missing key raises KeyError). -/
def maxValues : Nat → Py Nat
  | 0 => .ok 0x00
  | 1 => .ok 0x01
  | 2 => .ok 0x03
  | 3 => .ok 0x07
  | 4 => .ok 0x0f
  | 5 => .ok 0x1f
  | 6 => .ok 0x3f
  | 7 => .ok 0x7f
  | 8 => .ok 0xff
  | 14 => .ok 0x3fff
  | _ => .error .key

/-! ### Decoder -/

/-- The `while` loop at http2Codec.py 101-105 (and 320-323): pop from the front while the new
entry does not fit and the table is not empty. -/
def evict (max need : Int) : Int → List HeaderEntry → Int × List HeaderEntry
  | size, [] => (size, [])
  | size, e :: es =>
    if size + need > max then evict max need (size - entryLen e.header) es
    else (size, e :: es)

/-- http2Codec.py 96-111, append_decoded_header, and 317-327, append_encoded_header
(the same code on the two tables; the returned drop count is unused by the callers). -/
def appendHeader (t : Tab) (entry : HeaderEntry) : Tab :=
  let need : Int := entryLen entry.header
  let (size, entries) := evict t.max need t.size t.entries
  if size + need ≤ t.max then
    { t with entries := entries ++ [entry], size := size + need }
  else
    { t with entries := entries, size := size }

/-- Python's `list.insert(i, x)`: a negative `i` counts from the end, clamped at 0. -/
def pyInsert {α : Type} (l : List α) (i : Int) (x : α) : List α :=
  let pos : Nat := if i < 0 then (l.length + i).toNat else i.toNat
  l.take pos ++ x :: l.drop pos

/-- The `while` loop at http2Codec.py 121-129; returns (table size, size, index, table). -/
def insertEvict (max removedSize : Int) :
    Int → Int → Int → List HeaderEntry → Int × Int × Int × List HeaderEntry
  | tsize, size, index, [] => (tsize, size, index, [])
  | tsize, size, index, e :: es =>
    if tsize + size > max then
      insertEvict max removedSize (tsize - entryLen e.header)
        (if index - 1 = -1 then size + removedSize else size) (index - 1) es
    else (tsize, size, index, e :: es)

/-- http2Codec.py 113-138, insert_decoded_header. -/
def insertHeader (t : Tab) (entry : HeaderEntry) (index : Nat) : Py Tab :=
  match t.entries[index]? with
  | none => .error .index
  | some old =>
    let removedSize : Int := entryLen old.header
    let (tsize, size, idx, entries) :=
      insertEvict t.max removedSize t.size (entryLen entry.header - removedSize) index t.entries
    if tsize + size ≤ t.max then
      .ok { t with
        entries := if 0 ≤ idx then entries.set idx.toNat entry else pyInsert entries idx entry
        size := tsize + size }
    else .ok { t with entries := entries, size := tsize }

/-- http2Codec.py 213-217, read_next_byte. -/
def readNextByte : List Nat → Py (Nat × List Nat)
  | [] => .error .index
  | b :: rest => .ok (b, rest)

/-- The continuation loop at http2Codec.py 229-235. -/
def readCont (value shift : Nat) : List Nat → Py (Nat × List Nat)
  | [] => .error .index
  | b :: rest =>
    if b &&& 0x80 > 0 then readCont (value + ((b &&& 0x7f) <<< shift)) (shift + 7) rest
    else .ok (value + ((b &&& 0x7f) <<< shift), rest)

/-- http2Codec.py 219-237, read_integer. -/
def readInteger (byte prefixSize : Nat) (rest : List Nat) : Py (Nat × List Nat) := do
  let (value, rest) ←
    if prefixSize ≤ 8 then do
      let m ← maxValues prefixSize
      pure (byte &&& m, rest)
    else do
      let m ← maxValues (prefixSize - 8)
      let (b, rest) ← readNextByte rest
      pure (((byte &&& m) <<< 8) ||| b, rest)
  let m ← maxValues prefixSize
  if value = m then readCont value 0 rest
  else pure (value, rest)

/-- http2Codec.py 239-246, read_literal_string: the slice is silently truncated. -/
def readLiteralString (rest : List Nat) : Py (Str × List Nat) := do
  let (length, rest) ← readInteger 0 0 rest
  pure (rest.take length, rest.drop length)

/-- Result of decoding one representation: table, headers emitted, unread bytes. -/
structure DecStep where
  tab : Tab
  out : List Hdr
  rest : List Nat
  deriving DecidableEq, Repr

/-- http2Codec.py 158-169: indexed representation. -/
def decodeIndexed (t : Tab) (byte : Nat) (rest : List Nat) : Py DecStep := do
  let (index, rest) ← readInteger byte 7 rest
  match t.entries[index]? with
  | none => .error .index
  | some entry =>
    if entry.referenced then
      pure { tab := { t with entries := t.entries.set index { entry with referenced := false, emitted := false } },
             out := [], rest := rest }
    else
      pure { tab := { t with entries := t.entries.set index { entry with referenced := true, emitted := true } },
             out := [entry.header], rest := rest }

/-- http2Codec.py 184-191: the name of a literal. -/
def decodeName (t : Tab) (nameIndex : Nat) (rest : List Nat) : Py (Str × List Nat) :=
  if nameIndex = 0 then readLiteralString rest
  else match t.entries[nameIndex - 1]? with
    | none => .error .index
    | some e => .ok (e.header.1, rest)

/-- http2Codec.py 171-204: literal representations. -/
def decodeLiteral (t : Tab) (byte : Nat) (rest : List Nat) : Py DecStep := do
  if byte &&& 0xC0 = 0 then
    -- LITERAL_SUBSTITUTION
    let (nameIndex, rest) ← readInteger byte 6 rest
    let (name, rest) ← decodeName t nameIndex rest
    let (referenceIndex, rest) ← readInteger 0 0 rest
    let (value, rest) ← readLiteralString rest
    let t ← insertHeader t { header := (name, value), referenced := true, emitted := true } referenceIndex
    pure { tab := t, out := [(name, value)], rest := rest }
  else if byte &&& 0xE0 = 0x60 then
    -- LITERAL_NOT_INDEXED
    let (nameIndex, rest) ← readInteger byte 5 rest
    let (name, rest) ← decodeName t nameIndex rest
    let (value, rest) ← readLiteralString rest
    pure { tab := t, out := [(name, value)], rest := rest }
  else if byte &&& 0xE0 = 0x40 then
    -- LITERAL_INCREMENTAL
    let (nameIndex, rest) ← readInteger byte 5 rest
    let (name, rest) ← decodeName t nameIndex rest
    let (value, rest) ← readLiteralString rest
    pure { tab := appendHeader t { header := (name, value), referenced := true, emitted := true },
           out := [(name, value)], rest := rest }
  else
    -- `mode` unbound; cannot happen for a byte below 0x80
    .error .name

/-- One iteration of the loop http2Codec.py 154-204. -/
def decodeStep (t : Tab) (byte : Nat) (rest : List Nat) : Py DecStep :=
  if byte &&& 0x80 ≠ 0 then decodeIndexed t byte rest else decodeLiteral t byte rest

/-- The loop http2Codec.py 154-204, with the table it leaves behind even when it raises (a step
raises before it changes the table).  The fuel bounds the number of iterations; every
iteration consumes a byte so the number of unread bytes is enough (proved). -/
def decodeLoop : Nat → Tab → List Hdr → List Nat → Tab × Py (List Hdr)
  | _, t, headers, [] => (t, .ok headers)
  | 0, t, _, _ :: _ => (t, .error .outOfFuel)
  | n + 1, t, headers, byte :: rest =>
    match decodeStep t byte rest with
    | .error e => (t, .error e)
    | .ok s => decodeLoop n s.tab (headers ++ s.out) s.rest

/-- http2Codec.py 149-150 (and 288-289): forget which entries were emitted. -/
def resetEmitted (es : List HeaderEntry) : List HeaderEntry :=
  es.map fun e => { e with emitted := false }

/-- http2Codec.py 206-209: the remaining headers. -/
def remainingHeaders (es : List HeaderEntry) : List Hdr :=
  (es.filter fun e => e.referenced && !e.emitted).map (·.header)

/-- http2Codec.py 140-211, decode_headers: the decoder's table afterwards and the result. -/
def decodeHeaders (t : Tab) (stream : List Nat) : Tab × Py (List Hdr) :=
  let decodedStream := stream.drop 8
  match decodeLoop decodedStream.length { t with entries := resetEmitted t.entries } [] decodedStream with
  | (t, .error e) => (t, .error e)
  | (t, .ok headers) => (t, .ok (headers ++ remainingHeaders t.entries))

/-! ### Encoder -/

/-- http2Codec.py 251-256, find_header. -/
def findHeader (es : List HeaderEntry) (h : Hdr) : Option Nat :=
  es.findIdx? fun e => h == e.header

/-- http2Codec.py 258-264, find_header_name. -/
def findHeaderName (es : List HeaderEntry) (h : Hdr) : Option Nat :=
  es.findIdx? fun e => h.1 == e.header.1

/-- `name_index + 1` where "not found" is -1. -/
def idxPlusOne : Option Nat → Nat
  | none => 0
  | some i => i + 1

/-- http2Codec.py 266-273, update_encoder_table. -/
def updateTable (es : List HeaderEntry) : List HeaderEntry :=
  es.map fun e => { e with age := if e.referenced then 0 else e.age + 1, emitted := false }

/-- Loop body http2Codec.py 292-305 for one header:
(table with marks, referenced_headers, remaining_headers). -/
def diffMark (st : List HeaderEntry × List Hdr × List Hdr) (h : Hdr) :
    List HeaderEntry × List Hdr × List Hdr :=
  let (es, refs, rems) := st
  match findHeader es h with
  | none => (es, refs, rems ++ [h])
  | some i =>
    match es[i]? with
    | none => (es, refs, rems)          -- impossible: `findHeader` returned a valid index
    | some e =>
      if e.referenced then
        if e.emitted then (es, refs, rems ++ [h])
        else (es.set i { e with emitted := true }, refs ++ [h], rems)
      else (es, refs, rems ++ [h])

/-- http2Codec.py 307-313: indices of referenced but unmarked entries, starting at index `i`. -/
def removedFrom (i : Nat) : List HeaderEntry → List Nat
  | [] => []
  | e :: es =>
    if e.referenced && !e.emitted then i :: removedFrom (i + 1) es else removedFrom (i + 1) es

/-- http2Codec.py 313: marks are cleared again on marked entries. -/
def clearMarks (es : List HeaderEntry) : List HeaderEntry :=
  es.map fun e => if e.referenced && e.emitted then { e with emitted := false } else e

/-- Result of compute_diff together with the table it leaves behind. -/
structure Diff where
  entries : List HeaderEntry
  removed : List Nat
  referenced : List Hdr
  remaining : List Hdr
  deriving DecidableEq, Repr

/-- http2Codec.py 275-315, compute_diff. -/
def computeDiff (es : List HeaderEntry) (headers : List Hdr) : Diff :=
  let (es, refs, rems) := headers.foldl diffMark (resetEmitted es, [], [])
  { entries := clearMarks es, removed := removedFrom 0 es, referenced := refs, remaining := rems }

/-- The loop http2Codec.py 456-463.  `fuel` bounds the iterations; `value` itself is enough. -/
def contBytes : Nat → Nat → Py (List Nat)
  | 0, value => if value > 0 then .error .outOfFuel else .ok []
  | fuel + 1, value =>
    if value > 0 then do
      let q := value >>> 7
      let byte := if q > 0 then 0x80 else 0
      let b ← packB (byte ||| (value &&& 0x7F))
      let bs ← contBytes fuel q
      pure (b ++ bs)
    else .ok []

/-- http2Codec.py 439-463, write_integer: the bytes appended to the stream. -/
def writeInteger (byte prefixSize value : Nat) : Py (List Nat) := do
  let m ← maxValues prefixSize
  if value < m then
    if prefixSize ≤ 8 then packB (byte + value)
    else packH (((byte ||| (value >>> 8)) <<< 8) ||| (value &&& 0xFF))
  else
    let p ← if prefixSize > 0 then packB (byte + m) else pure []
    let value := value - m
    let z ← if value = 0 then packB 0 else pure []
    let c ← contBytes value value
    pure (p ++ z ++ c)

/-- http2Codec.py 465-468, write_literal_string. -/
def writeLiteralString (s : Str) : Py (List Nat) := do
  let l ← writeInteger 0 0 s.length
  pure (l ++ s)

/-- http2Codec.py 40-43: the representations (the encoder never selects substitution). -/
inductive Representation where
  | indexed (index : Nat)
  | notIndexed
  | incremental
  deriving DecidableEq, Repr

/-- http2Codec.py 329-341, determine_representation. -/
def determineRepresentation (t : Tab) (h : Hdr) : Representation :=
  match findHeader t.entries h with
  | some i => .indexed i
  | none => if h.1 = b!":path" then .notIndexed else .incremental

/-- Name and value of a literal, http2Codec.py 361-364 and 369-372. -/
def writeLiteral (flags : Nat) (t : Tab) (h : Hdr) : Py (List Nat) := do
  let nameIndex := findHeaderName t.entries h
  let a ← writeInteger flags 5 (idxPlusOne nameIndex)
  let n ← match nameIndex with
    | none => writeLiteralString h.1
    | some _ => pure []
  let v ← writeLiteralString h.2
  pure (a ++ n ++ v)

/-- http2Codec.py 343-398, encode_header: new table and bytes appended.  The
LITERAL_SUBSTITUTION branch (378-395) is unreachable, see `determineRepresentation`. -/
def encodeHeader (t : Tab) (h : Hdr) : Py (Tab × List Nat) :=
  match determineRepresentation t h with
  | .indexed index =>
    match t.entries[index]? with
    | none => .error .index
    | some reference => do
      let w ← writeInteger 0x80 7 index
      pure ({ t with entries := t.entries.set index { reference with referenced := true, emitted := true } },
            if reference.referenced then w ++ w else w)
  | .notIndexed => do
    let w ← writeLiteral 0x60 t h
    pure (t, w)
  | .incremental => do
    let w ← writeLiteral 0x40 t h
    pure (appendHeader t { header := h, referenced := true, emitted := true }, w)

/-- http2Codec.py 412-416: the removals. -/
def encodeRemoved (t : Tab) : List Nat → Py (Tab × List Nat)
  | [] => .ok (t, [])
  | index :: is =>
    match t.entries[index]? with
    | none => .error .index
    | some entry => do
      let w ← writeInteger 0x80 7 index
      let (t, ws) ← encodeRemoved
        { t with entries := t.entries.set index { entry with referenced := false, emitted := false } } is
      pure (t, w ++ ws)

/-- http2Codec.py 419-420: encode a list of headers one after the other. -/
def encodeList (t : Tab) : List Hdr → Py (Tab × List Nat)
  | [] => .ok (t, [])
  | h :: hs => do
    let (t, w) ← encodeHeader t h
    let (t, ws) ← encodeList t hs
    pure (t, w ++ ws)

/-- http2Codec.py 425-432: one pass over the referenced headers; also returns whether
anything was encoded. -/
def resendPass (t : Tab) : List Hdr → Py (Tab × List Nat × Bool)
  | [] => .ok (t, [], false)
  | h :: hs =>
    match findHeader t.entries h with
    | none => do
      let (t, w) ← encodeHeader t h
      let (t, ws, _) ← resendPass t hs
      pure (t, w ++ ws, true)
    | some _ => resendPass t hs

/-- http2Codec.py 423-432: the `while` loop, at most `fuel` passes.  `none` means that the
loop is still running after `fuel` passes.  `referenced_headers` is not changed by the loop. -/
def resendLoop : Nat → Tab → List Hdr → Option (Py (Tab × List Nat))
  | 0, _, _ => none
  | fuel + 1, t, refs =>
    if refs = [] then some (.ok (t, []))
    else match resendPass t refs with
      | .error e => some (.error e)
      | .ok (t, w, false) => some (.ok (t, w))
      | .ok (t, w, true) =>
        match resendLoop fuel t refs with
        | none => none
        | some (.error e) => some (.error e)
        | some (.ok (t, ws)) => some (.ok (t, w ++ ws))

/-- http2Codec.py 402-432: everything but the framing. -/
def encodeBody (fuel : Nat) (t : Tab) (headers : List Hdr) : Option (Py (Tab × List Nat)) :=
  let d := computeDiff t.entries headers
  let t := { t with entries := updateTable d.entries }
  match encodeRemoved t d.removed with
  | .error e => some (.error e)
  | .ok (t, w1) =>
    match encodeList t d.remaining with
    | .error e => some (.error e)
    | .ok (t, w2) =>
      match resendLoop fuel t d.referenced with
      | none => none
      | some (.error e) => some (.error e)
      | some (.ok (t, w3)) => some (.ok (t, w1 ++ w2 ++ w3))

/-- http2Codec.py 436-437: `pack("!HBBL", len, 0, 0, 0) + stream`. -/
def frame (stream : List Nat) : Py (List Nat) := do
  let l ← packH stream.length
  pure (l ++ [0, 0] ++ [0, 0, 0, 0] ++ stream)

/-- http2Codec.py 400-437, encode_headers: the table afterwards and the frame or exception;
`none` while the re-send loop has not finished within `fuel` passes.  When the framing raises,
the table keeps its updates (the Python object has already been mutated). -/
def encodeHeaders (fuel : Nat) (t : Tab) (headers : List Hdr) : Option (Tab × Py (List Nat)) :=
  match encodeBody fuel t headers with
  | none => none
  | some (.error e) => some (t, .error e)      -- never happens, see `encodeBody_no_error`
  | some (.ok (t', stream)) => some (t', frame stream)

/-! ### Sessions -/

/-- Encode messages one after the other with one encoder; stops at the first exception. -/
def encodeAll (fuel : Nat) : Tab → List (List Hdr) → Option (Py (Tab × List (List Nat)))
  | t, [] => some (.ok (t, []))
  | t, m :: ms =>
    match encodeHeaders fuel t m with
    | none => none
    | some (_, .error e) => some (.error e)
    | some (t, .ok f) =>
      match encodeAll fuel t ms with
      | none => none
      | some (.error e) => some (.error e)
      | some (.ok (t, fs)) => some (.ok (t, f :: fs))

/-- Decode frames one after the other with one decoder; stops at the first exception. -/
def decodeAll : Tab → List (List Nat) → Py (Tab × List (List Hdr))
  | t, [] => .ok (t, [])
  | t, f :: fs =>
    match decodeHeaders t f with
    | (_, .error e) => .error e
    | (t, .ok hs) => do
      let (t, hss) ← decodeAll t fs
      pure (t, hs :: hss)

/-! ### compressor/http2/__init__.py -/

/-- `h not in lst` filter of __init__.py 60-61.  The generator is consumed while `lst` grows
(CPython's list.extend appends item by item), so repeated pieces are dropped. -/
def extendNew (lst : List Hdr) : List Hdr → List Hdr
  | [] => lst
  | h :: hs => extendNew (if h ∈ lst then lst else lst ++ [h]) hs

/-- __init__.py 53-62, split_headers. -/
def splitHeaders (d : Dict Str Str) : List Hdr :=
  d.foldl (fun lst (kv : Str × Str) =>
    let ch := if kv.1 = b!"cookie" then 59 else 0
    extendNew lst ((splitOn ch kv.2).map fun vs => (kv.1, stripWs vs))) []

/-- __init__.py 64-74, join_headers. -/
def joinHeaders (lst : List Hdr) : Dict Str Str :=
  lst.foldl (fun d (kv : Hdr) =>
    match d.get? kv.1 with
    | some old => d.set kv.1 (if kv.1 = b!"cookie" then old ++ [59] ++ kv.2 else old ++ [0] ++ kv.2)
    | none => d.set kv.1 kv.2) []

/-- __init__.py 99-103, Processor.compress. -/
def compress (fuel : Nat) (t : Tab) (d : Dict Str Str) : Option (Tab × Py (List Nat)) :=
  encodeHeaders fuel t (splitHeaders d)

/-- __init__.py 105-107, Processor.decompress. -/
def decompress (t : Tab) (frame : List Nat) : Tab × Py (Dict Str Str) :=
  match decodeHeaders t frame with
  | (t, .error e) => (t, .error e)
  | (t, .ok hs) => (t, .ok (joinHeaders hs))

end Verif.Http2
