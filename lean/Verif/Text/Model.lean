import Verif.Py
/-
Model of the text formats: compressor/__init__.py (format_http1, parse_http1), compressor/http1,
compressor/simple and compressor/simple/seven.py, compressor/spdy3 (Spdy3HeadersFormat) and
enc_uvarint of compressor/bohe/bohe.py.

The characters `strip()`/`split(None)` remove (`ws`) and `lower()` are parameters: they differ
between Python 2 byte strings and Python 3 text.
-/
namespace Verif.Text
open Verif

/-- `d.get(k, default)`. -/
def getD (d : Dict Str Str) (k dflt : Str) : Str := (d.get? k).getD dflt

/-- The keyword arguments of format_http1, compressor/__init__.py 47-51. -/
structure Fmt where
  delimiter : Str
  valsep : Str
  host : Str
  version : Str
  deriving DecidableEq, Repr

/-- The default arguments, compressor/__init__.py 48-51. -/
def defaultFmt : Fmt := { delimiter := b!"\r\n", valsep := b!": ", host := b!"host", version := b!"HTTP/1.1" }

/-- compressor/__init__.py 56-65: the first line without its delimiter. -/
def topLine (f : Fmt) (frame : Dict Str Str) : Str :=
  if frame.has b!":method" then
    getD frame b!":method" [] ++ [32] ++ getD frame b!":path" [] ++ [32] ++ getD frame b!":version" f.version
  else
    getD frame b!":version" f.version ++ [32] ++ getD frame b!":status" [] ++ [32] ++ getD frame b!":status-text" b!"?"

/-- compressor/__init__.py 60 and 65, avoid_list. -/
def avoidList (frame : Dict Str Str) : List Str :=
  if frame.has b!":method" then [b!":method", b!":path", b!":version"]
  else [b!":version", b!":status", b!":status-text"]

/-- compressor/__init__.py 69-77: the lines of one header. -/
def headerLines (f : Fmt) (avoid : List Str) (kv : Str × Str) : Str :=
  if kv.1 ∈ avoid then []
  else
    let key := if kv.1 = b!":host" then f.host else kv.1
    (splitOn 0 kv.2).flatMap fun v => key ++ f.valsep ++ v ++ f.delimiter

/-- compressor/__init__.py 47-79, format_http1. -/
def formatHttp1 (f : Fmt) (frame : Dict Str Str) : Str :=
  topLine f frame ++ f.delimiter ++ frame.flatMap (headerLines f (avoidList frame)) ++ f.delimiter

/-- `s.split(None, 2)`. -/
def splitWs2 (ws : Nat → Bool) (s : Str) : List Str :=
  let s := s.dropWhile ws
  if s = [] then [] else
    let a := s.takeWhile (fun c => !ws c)
    let s := (s.dropWhile (fun c => !ws c)).dropWhile ws
    if s = [] then [a] else
      let b := s.takeWhile (fun c => !ws c)
      let s := (s.dropWhile (fun c => !ws c)).dropWhile ws
      if s = [] then [a, b] else [a, b, s]

/-- `a, b = s.split(":", 1)`. -/
def unpackColon (s : Str) : Py (Str × Str) :=
  match splitOnce 58 s with
  | some ab => .ok ab
  | none => .error .value

/-- compressor/__init__.py 90-94. -/
def nameValue (line : Str) : Py (Str × Str) :=
  match line with
  | [] => .error .index
  | c :: rest =>
    if c = 58 then do
      let (n, v) ← unpackColon rest
      pure (58 :: n, v)
    else unpackColon (c :: rest)

/-- compressor/__init__.py 96-99. -/
def addPiece (out : Dict Str Str) (name value : Str) : Dict Str Str :=
  match out.get? name with
  | some old => out.set name (old ++ ([0] ++ value))
  | none => out.set name value

/-- The loop compressor/__init__.py 87-99. -/
def parseLines (lower : Str → Str) (ws : Nat → Bool) : List Str → Dict Str Str → Py (Dict Str Str)
  | [], out => .ok out
  | line :: lines, out =>
    if line = [] then .ok out
    else do
      let (name, value) ← nameValue line
      parseLines lower ws lines (addPiece out (lower name) (stripBy ws value))

/-- `l[i]`. -/
def item (l : List Str) (i : Nat) : Py Str :=
  match l[i]? with
  | some x => .ok x
  | none => .error .index

/-- compressor/__init__.py 82-111, parse_http1. -/
def parseHttp1 (lower : Str → Str) (ws : Nat → Bool) (message : Str) (isRequest : Bool) (host : Str) :
    Py (Dict Str Str) := do
  let lines := splitOn 10 (stripBy ws message)
  let top := splitWs2 ws (lines.headD [])
  let out ← parseLines lower ws lines.tail []
  if isRequest then do
    let m ← item top 0
    let p ← item top 1
    let v ← item top 2
    let out := ((out.set b!":method" m).set b!":path" p).set b!":version" (stripBy ws v)
    match out.get? host with
    | some h => pure ((out.set b!":host" h).del host)
    | none => pure out
  else do
    let v ← item top 0
    let s ← item top 1
    let t ← item top 2
    pure (((out.set b!":version" v).set b!":status" s).set b!":status-text" (stripBy ws t))

/-- compressor/http1/__init__.py 8-12, Processor.compress and decompress. -/
def http1Compress (h : Dict Str Str) : Str := formatHttp1 defaultFmt h

def http1Decompress (lower : Str → Str) (ws : Nat → Bool) (isRequest : Bool) (s : Str) : Py (Dict Str Str) :=
  parseHttp1 lower ws s isRequest b!"host"

end Verif.Text
