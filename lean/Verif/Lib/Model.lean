import Verif.Py
/-
Model of lib/ (processors.py, stream.py, harfile.py, streamifiers) and of
compare_compressors.py.

Simplifications common to the file:
* `str.lower()` and the whitespace set of `str.strip()` depend on Unicode tables, so they are
  parameters (`lower`, `ws`).
* measured times and the verbose/warning output are left out.
* a set is a list of which only membership matters; the order in which Python iterates over a
  set is a parameter.
-/
namespace Verif.Lib

/-! ### lib/processors.py: compare_headers and filter_headers -/

/-- processors.py 13-24, NormalizeDict. -/
def normalizeDict (ignores : List Str) (d : Dict Str Str) : List Hdr :=
  d.flatMap fun kv =>
    if kv.1 ∈ ignores then []
    else if kv.1 = b!"cookie" then (splitOn 59 kv.2).map fun x => (kv.1, stripSpace x)
    else (splitOn 0 kv.2).map fun x => (kv.1, stripSpace x)

/-- processors.py 28-30: `a.difference(b)`. -/
def difference (a b : List Hdr) : List Hdr := a.filter fun x => !(b.contains x)

/-- processors.py 185-192: the lines reporting one side. -/
def onlyLines (name : Str) (only : List Hdr) : List Str :=
  if only = [] then []
  else (b!"Only found in: " ++ name) :: only.map fun x => [9] ++ x.1 ++ b!": " ++ x.2

/-- processors.py 168-193, compare_headers (and compare_headers_impl, 12-31).  `ord` is the order
in which Python iterates over a set. -/
def compareHeaders (ord : List Hdr → List Hdr) (a : Dict Str Str) (aName : Str) (b : Dict Str Str)
    (bName : Str) : Str :=
  let ignores := [b!":version", b!":status-text", b!"connection"]
  let aHdr := normalizeDict ignores a
  let bHdr := normalizeDict ignores b
  joinWith [10] (onlyLines aName (ord (difference aHdr bHdr)) ++
    onlyLines bName (ord (difference bHdr aHdr)))

/-- processors.py 86-90: the names filter_headers ignores. -/
def ignoredNames (hdrs : Dict Str Str) : List Str :=
  let ignore := [b!":status-text", b!":version", b!"keep-alive", b!"connection"]
  match hdrs.get? b!"connection" with
  | some v => ignore ++ (splitOn 44 v).map stripSpace
  | none => ignore

/-- processors.py 85-96, filter_headers. -/
def filterHeaders (hdrs : Dict Str Str) : Dict Str Str :=
  hdrs.foldl (fun new kv => if kv.1 ∈ ignoredNames hdrs then new else Dict.set new kv.1 kv.2) []

/-! ### lib/processors.py: codec names -/

/-- processors.py 53-60: module name and parameters of a codec given on the command line. -/
def parseCodec (ws : Nat → Bool) (name : Str) : Py (Str × List Str) :=
  match splitOnce 61 name with
  | some (moduleName, paramStr) =>
    match paramStr.head?, paramStr.getLast? with
    | some c, some c' =>
      let paramStr := if c = c' ∧ c' = 34 then (paramStr.drop 1).dropLast else paramStr
      .ok (moduleName, (splitOn 44 paramStr).map (stripBy ws))
    | _, _ => .error .index
  | none => .ok (name, [])

/-- compressor/__init__.py 14-18: the name a codec registers under.  `__module__` is
`"compressor." + moduleName`. -/
def codecName (moduleName : Str) (params : List Str) : Py Str :=
  match (splitOn 46 (b!"compressor." ++ moduleName)).getLast? with
  | none => .error .index
  | some name =>
    if params = [] then .ok name else .ok (name ++ b!" (" ++ joinWith b!", " params ++ b!")")

/-- compare_compressors.py 35-40: the codecs that are run. -/
def codecList (baseline : Str) (names : List Str) : List Str :=
  if baseline ∈ names then names else baseline :: names

/-! ### lib/processors.py: running the codecs -/

/-- A codec object with states in `σ`.  `NotImplementedError` is `.error .notImpl`. -/
structure Codec (σ : Type) where
  name : Str
  compress : σ → Dict Str Str → Str → Py (σ × List Nat)
  decompress : σ → List Nat → Py (σ × Dict Str Str)

/-- What processing a message produces: codec states, sizes per codec name (in dictionary order)
and the names reported as mismatching. -/
structure MsgResult (σ : Type) where
  states : List (Codec σ × σ)
  sizes : Dict Str Nat
  mismatches : List Str

/-- processors.py 113-157: the loop over the codecs.  verbose ≤ 1 and debug off. -/
def processCodecs {σ : Type} (ord : List Hdr → List Hdr) (hdrs : Dict Str Str) (host : Str) :
    List (Codec σ × σ) → MsgResult σ → Py (MsgResult σ)
  | [], r => .ok r
  | (c, s) :: cs, r =>
    let filtered := filterHeaders hdrs
    match c.compress s filtered host with
    | .error e => .error e
    | .ok (s, compressed) =>
      let sizes := r.sizes.set c.name compressed.length
      match c.decompress s compressed with
      | .error .notImpl =>
        processCodecs ord hdrs host cs { r with states := r.states ++ [(c, s)], sizes := sizes }
      | .error e => .error e
      | .ok (s, decompressed) =>
        let mm := if compareHeaders ord filtered b!"orig" decompressed c.name = [] then []
          else [c.name]
        processCodecs ord hdrs host cs
          { states := r.states ++ [(c, s)], sizes := sizes, mismatches := r.mismatches ++ mm }

/-- processors.py 98-158, process_message. -/
def processMessage {σ : Type} (ord : List Hdr → List Hdr) (cs : List (Codec σ × σ))
    (hdrs : Dict Str Str) (host : Str) : Py (MsgResult σ) :=
  processCodecs ord hdrs host cs { states := [], sizes := [], mismatches := [] }

/-- A ratio `1.0 * a / b`, kept as the pair (the rounding of floats is not modelled). -/
abbrev Ratio := Nat × Nat

/-- The measurements of a stream (stream.py 22-23). -/
structure Results where
  sizes : Dict Str (List Nat)
  ratios : Dict Str (List Ratio)
  deriving DecidableEq, Repr

/-- `defaultdict(list)[k].append(x)`. -/
def push {β : Type} (d : Dict Str (List β)) (k : Str) (x : β) : Dict Str (List β) :=
  match d.get? k with
  | some l => d.set k (l ++ [x])
  | none => d.set k [x]

/-- processors.py 79-82: the ratio of one codec's size to the baseline's. -/
def ratioOf (baseline : Str) (results : Dict Str Nat) (name : Str) (size : Nat) : Py Ratio :=
  if name = baseline then .ok (1, 1)
  else match results.get? baseline with
    | none => .error .key
    | some 0 => .error .zeroDiv
    | some b => .ok (size, b)

/-- processors.py 78-83 (and stream.py 26-29, record_result): record the results of a message. -/
def recordAll (baseline : Str) (results : Dict Str Nat) : List (Str × Nat) → Results → Py Results
  | [], r => .ok r
  | (name, size) :: rest, r =>
    match ratioOf baseline results name size with
    | .error e => .error e
    | .ok ratio =>
      recordAll baseline results rest
        { sizes := push r.sizes name size, ratios := push r.ratios name ratio }

/-- processors.py 74-83: the loop over a session's messages; the last component collects the
mismatch reports, message by message. -/
def processLoop {σ : Type} (ord : List Hdr → List Hdr) (baseline : Str) :
    List (Dict Str Str × Str) → List (Codec σ × σ) → Results → Py (Results × List (List Str))
  | [], _, r => .ok (r, [])
  | (hdrs, host) :: ms, cs, r =>
    match processMessage ord cs hdrs host with
    | .error e => .error e
    | .ok m =>
      match recordAll baseline m.sizes m.sizes r with
      | .error e => .error e
      | .ok r =>
        match processLoop ord baseline ms m.states r with
        | .error e => .error e
        | .ok (r, mms) => .ok (r, m.mismatches :: mms)

/-- processors.py 66-83, process_session, on a new stream with new codec objects `cs`. -/
def processSession {σ : Type} (ord : List Hdr → List Hdr) (baseline : Str) (cs : List (Codec σ × σ))
    (messages : List (Dict Str Str × Str)) : Py (Results × List (List Str)) :=
  processLoop ord baseline messages cs { sizes := [], ratios := [] }

/-! ### lib/stream.py -/

/-- stream.py 99-100: update one key that is in both. -/
def mergeStep {β : Type} (d2 r : Dict Str (List β)) (kv : Str × List β) : Dict Str (List β) :=
  match d2.get? kv.1 with
  | some l2 => Dict.set r kv.1 (kv.2 ++ l2)
  | none => r

/-- stream.py 94-101, merge_dols.  The update over the common keys is done in `dol1`'s key order
(the order is irrelevant: the keys are distinct). -/
def mergeDols {β : Type} (d1 d2 : Dict Str (List β)) : Dict Str (List β) :=
  let result := d2.foldl (fun r kv => Dict.set r kv.1 kv.2) d1
  d1.foldl (mergeStep d2) result

/-- A stream object (stream.py 16-24).  `messages` is a reference: two objects may share a list. -/
structure Stream where
  name : Str
  messages : Nat
  isReq : Bool
  procs : List Str
  results : Results
  deriving DecidableEq, Repr

/-- The objects that exist: message lists and streams. -/
structure World (M : Type) where
  lists : List (List M)
  streams : List Stream

/-- stream.py 75-81: the sum of two streams. -/
def sumStream (a b : Stream) : Stream :=
  { name := [], messages := a.messages, isReq := a.isReq, procs := a.procs,
    results := { sizes := mergeDols a.results.sizes b.results.sizes,
                 ratios := mergeDols a.results.ratios b.results.ratios } }

/-- stream.py 73-82, `__add__`: a new stream that shares the left operand's message list, which is
extended in place. -/
def addStreams {M : Type} (w : World M) (i j : Nat) : Py (World M × Nat) :=
  match w.streams[i]?, w.streams[j]? with
  | some a, some b =>
    if a.isReq ≠ b.isReq then .error .assertion
    else match w.lists[a.messages]?, w.lists[b.messages]? with
      | some la, some lb =>
        .ok ({ lists := w.lists.set a.messages (la ++ lb), streams := w.streams ++ [sumStream a b] },
          w.streams.length)
      | _, _ => .error .attribute
  | _, _ => .error .attribute

/-- `reduce(operator.add, ...)` with an accumulator. -/
def addAll {M : Type} (w : World M) (acc : Nat) : List Nat → Py (World M × Nat)
  | [] => .ok (w, acc)
  | j :: js => do
    let (w, acc) ← addStreams w acc j
    addAll w acc js

/-- compare_compressors.py 62-63: the total stream of one direction, renamed `TOTAL`. -/
def totalStream {M : Type} (w : World M) (sessions : List Nat) (isReq : Bool) :
    Py (World M × Nat) :=
  match sessions.filter fun i => (w.streams[i]?.map (·.isReq)) == some isReq with
  | [] => .error .type
  | i :: is => do
    let (w, t) ← addAll w i is
    pure ({ w with streams := w.streams.modify t fun s => { s with name := b!"TOTAL" } }, t)

/-- One line of TSV output: number, stream name, sizes. -/
structure TsvRow where
  num : Nat
  name : Str
  sizes : List Nat
  deriving DecidableEq, Repr

/-- `zip(*lists)`. -/
def zipAll : List (List Nat) → List (List Nat)
  | [] => []
  | [l] => l.map fun x => [x]
  | l :: ls => List.zipWith (fun x xs => x :: xs) l (zipAll ls)

/-- stream.py 67-71: number the lines. -/
def numberRows (name : Str) (count : Nat) : List (List Nat) → List TsvRow × Nat
  | [] => ([], count)
  | line :: rest =>
    let (rows, c) := numberRows name (count + 1) rest
    (⟨count + 1, name, line⟩ :: rows, c)

/-- `self.sizes[proc]` on a `defaultdict(list)`. -/
def sizesOf (d : Dict Str (List Nat)) (proc : Str) : List Nat :=
  match d.get? proc with
  | some l => l
  | none => []

/-- stream.py 64-71, print_tsv. -/
def printTsv (s : Stream) (count : Nat) : List TsvRow × Nat :=
  numberRows s.name count (zipAll (s.procs.map (sizesOf s.results.sizes)))

/-- compare_compressors.py 67-78: the rows of the two files. -/
def tsvLoop : List Stream → (List TsvRow × Nat) × (List TsvRow × Nat) →
    (List TsvRow × Nat) × (List TsvRow × Nat)
  | [], out => out
  | s :: ss, (req, res) =>
    if s.isReq then
      let (rows, c) := printTsv s req.2
      tsvLoop ss ((req.1 ++ rows, c), res)
    else
      let (rows, c) := printTsv s res.2
      tsvLoop ss (req, (res.1 ++ rows, c))

/-! ### lib/harfile.py -/

/-- harfile.py 78-81: the value after another line with the same name. -/
def addLine (old : Option Str) (val : Str) : Str :=
  match old with
  | some old => old ++ [0] ++ val
  | none => val

/-- harfile.py 68-82, process_headers. -/
def processHeaders (lower : Str → Str) : List Hdr → Dict Str Str → Py (Dict Str Str)
  | [], out => .ok out
  | (name, val) :: rest, out =>
    let name := lower name
    if name = [] then .error .standard
    else
      let name := if name = b!"host" then b!":host" else name
      processHeaders lower rest (out.set name (addLine (out.get? name) val))

/-- harfile.py 54: `re.sub("^[^:]*://([^/]*)/.*$", "\\1", url)`. -/
def reHost (url : Str) : Str :=
  match splitOnce 58 url with
  | some (_, 47 :: 47 :: rest) =>
    match splitOnce 47 rest with
    | some (host, rest) =>
      match rest.dropWhile (fun c => c ≠ 10) with
      | [] => host
      | [10] => host ++ [10]
      | _ => url
    | none => url
  | _ => url

/-- harfile.py 59: `re.sub("^([0-9]*).*", "\\1", s)`. -/
def reStatus (s : Str) : Str :=
  let digits := s.takeWhile fun c => 48 ≤ c && c ≤ 57
  digits ++ (s.drop digits.length).dropWhile fun c => c ≠ 10

/-- harfile.py 101-127. -/
def statusPhrases : Dict Str Str := [
  (b!"200", b!"OK"),
  (b!"201", b!"Created"),
  (b!"202", b!"Accepted"),
  (b!"203", b!"Non-Authoritative Information"),
  (b!"204", b!"No Content"),
  (b!"205", b!"Reset Content"),
  (b!"206", b!"Partial Content"),
  (b!"207", b!"Multi-Status"),
  (b!"300", b!"Multiple Choices"),
  (b!"301", b!"Moved Permanently"),
  (b!"302", b!"Found"),
  (b!"303", b!"See Other"),
  (b!"304", b!"Not Modified"),
  (b!"307", b!"Temporary Redirect"),
  (b!"308", b!"Permanent Redirect"),
  (b!"400", b!"Bad Request"),
  (b!"401", b!"Unauthorized"),
  (b!"403", b!"Forbidden"),
  (b!"404", b!"Not Found"),
  (b!"405", b!"Method Not Allowed"),
  (b!"406", b!"Not Acceptable"),
  (b!"408", b!"Request Timeout"),
  (b!"409", b!"Conflict"),
  (b!"410", b!"Gone"),
  (b!"500", b!"Internal Server Error")]

/-- The parts of a HAR entry that are used.  `scheme`, `path` and `query` are what
`urllib.parse.urlsplit(url)` returns (the library function is not modelled). -/
structure HarEntry where
  url : Str
  scheme : Str
  path : Str
  query : Str
  method : Str
  reqVersion : Str
  reqHeaders : List Hdr
  status : Str
  statusText : Str
  resVersion : Str
  resHeaders : List Hdr

/-- harfile.py 53: a string is never equal to a dictionary. -/
def strInDicts (_ : Str) (_ : List (Dict Str Str)) : Bool := false

/-- harfile.py 46-54: the request headers of an entry. -/
def harRequest (lower : Str → Str) (seen : List (Dict Str Str)) (e : HarEntry) : Py (Dict Str Str) := do
  let h ← processHeaders lower e.reqHeaders []
  let h := h.set b!":method" (lower e.method)
  let h := h.set b!":path" (if e.query = [] then e.path else e.path ++ [63] ++ e.query)
  let h := h.set b!":scheme" (lower e.scheme)
  let h := h.set b!":version" e.reqVersion
  pure (if strInDicts b!":host" seen then h else h.set b!":host" (reHost e.url))

/-- harfile.py 57-62: the response headers of an entry. -/
def harResponse (lower : Str → Str) (ws : Nat → Bool) (e : HarEntry) : Py (Dict Str Str) := do
  let h ← processHeaders lower e.resHeaders []
  let h := h.set b!":status" (reStatus e.status)
  let text := stripBy ws e.statusText
  let text := if text = [] then
      match statusPhrases.get? (reStatus e.status) with
      | some p => p
      | none => b!"unknown"
    else text
  let h := h.set b!":status-text" text
  pure (h.set b!":version" e.resVersion)

/-- harfile.py 41-63: the loop over the entries. -/
def harLoop (lower : Str → Str) (ws : Nat → Bool) :
    List HarEntry → List (Dict Str Str) × List (Dict Str Str) →
      Py (List (Dict Str Str) × List (Dict Str Str))
  | [], out => .ok out
  | e :: es, (reqs, ress) =>
    if lower e.scheme = b!"http" ∨ lower e.scheme = b!"https" then do
      let q ← harRequest lower reqs e
      let s ← harResponse lower ws e
      harLoop lower ws es (reqs ++ [q], ress ++ [s])
    else harLoop lower ws es (reqs, ress)

/-- harfile.py 32-65, har2hdrs. -/
def har2hdrs (lower : Str → Str) (ws : Nat → Bool) (es : List HarEntry) :
    Py (List (Dict Str Str) × List (Dict Str Str)) := harLoop lower ws es ([], [])

/-! ### lib/streamifiers -/

/-- A message: request and response headers. -/
abbrev Message := Dict Str Str × Dict Str Str

/-- A stream as created by a streamifier: name, messages with their host, direction. -/
structure NewStream where
  name : Str
  messages : List (Dict Str Str × Str)
  isReq : Bool
  deriving DecidableEq, Repr

/-- all_one.py 10-14. -/
def allOneLoop : List Message → Py (List (Dict Str Str × Str) × List (Dict Str Str × Str))
  | [] => .ok ([], [])
  | (req, res) :: ms =>
    match req.get? b!":host" with
    | none => .error .key
    | some host => do
      let (a, b) ← allOneLoop ms
      pure ((req, host) :: a, (res, host) :: b)

/-- all_one.py 9-17, streamify. -/
def streamifyAllOne (ms : List Message) : Py (List NewStream) := do
  let (reqs, ress) ← allOneLoop ms
  pure [⟨b!"all", reqs, true⟩, ⟨b!"all", ress, false⟩]

/-- State of the loop in host.py 19-27 and public_suffix.py 23-32. -/
structure Groups where
  keys : List Str
  reqs : Dict Str (List (Dict Str Str × Str))
  ress : Dict Str (List (Dict Str Str × Str))

/-- host.py 22-27 and public_suffix.py 26-32.  `key` is the stream a host belongs to and `label`
the host recorded with the message. -/
def groupLoop (key label : Str → Str) : List Message → Groups → Py Groups
  | [], g => .ok g
  | (req, res) :: ms, g =>
    match req.get? b!":host" with
    | none => .error .key
    | some host =>
      groupLoop key label ms
        { keys := if key host ∈ g.keys then g.keys else g.keys ++ [key host]
          reqs := push g.reqs (key host) (req, label host)
          ress := push g.ress (key host) (res, label host) }

/-- `reqs[host]` on a `defaultdict(list)`. -/
def groupOf (d : Dict Str (List (Dict Str Str × Str))) (k : Str) : List (Dict Str Str × Str) :=
  match d.get? k with
  | some l => l
  | none => []

/-- host.py 29-33 and public_suffix.py 34-38. -/
def streamifyBy (key label : Str → Str) (ms : List Message) : Py (List NewStream) := do
  let g ← groupLoop key label ms ⟨[], [], []⟩
  pure (g.keys.flatMap fun k => [⟨k, groupOf g.reqs k, true⟩, ⟨k, groupOf g.ress k, false⟩])

/-- host.py 14-33: one pair of streams per lower-cased, stripped host. -/
def streamifyHost (lower : Str → Str) (ws : Nat → Bool) : List Message → Py (List NewStream) :=
  streamifyBy (fun h => stripBy ws (lower h)) (fun h => stripBy ws (lower h))

/-- public_suffix.py 28: `host.split(":", 1)[0]`. -/
def dropPort (h : Str) : Str :=
  match splitOnce 58 h with
  | some (a, _) => a
  | none => h

/-- public_suffix.py 18-38: one pair of streams per public suffix of the host without its port.
`psl` is PublicSuffixList.get_public_suffix (not modelled). -/
def streamifySuffix (psl : Str → Str) : List Message → Py (List NewStream) :=
  streamifyBy (fun h => psl (dropPort h)) (fun h => h)

end Verif.Lib
