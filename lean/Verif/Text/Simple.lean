import Verif.Text.Model
import Verif.Bits.Spec
/-
Model of compressor/simple/__init__.py and compressor/simple/seven.py (Python 2, byte strings).

The library functions behind the "date" parameter are themselves parameters; the "huffman" parameter (zlib) is in
`SimpleProc.lean`.  `bitarray` is an external library; its
`fromstring`/`frombytes` and `tobytes`/`tostring` are the bits of the bytes and the bits packed
into bytes with zeros at the end (big endian, the library's default).
-/
namespace Verif.Text
open Verif
open Verif.Bits.Spec (bitsOf pack)

/-! ### seven.py -/

/-- The loop seven.py 16-19, as often as `fuel` allows (`len(ba)` rounds are enough). -/
def sevenEncLoop : Nat → List Bool → List Bool
  | 0, _ => []
  | fuel + 1, ba => if ba = [] then [] else (ba.take 8).drop 1 ++ sevenEncLoop fuel (ba.drop 8)

/-- seven.py 11-21, encode. -/
def sevenEncode (text : Str) : Str :=
  pack (sevenEncLoop (bitsOf text).length (bitsOf text))

/-- The loop seven.py 28-32. -/
def sevenDecLoop : Nat → List Bool → List Bool
  | 0, _ => []
  | fuel + 1, ba => if ba = [] then [] else false :: ba.take 7 ++ sevenDecLoop fuel (ba.drop 7)

/-- seven.py 23-33, decode.  Every character is below 128, so `.encode('ascii')` changes nothing. -/
def sevenDecode (bits : Str) : Str :=
  (pack (sevenDecLoop (bitsOf bits).length (bitsOf bits))).dropLast

/-! ### simple/__init__.py -/

/-- simple/__init__.py 47-75, lookups. -/
def lookups : Dict Str Str := [
  (b!"x-content-type-options", b!"xct"), (b!"content-encoding", b!"ce"), (b!"access-control-allow-origin", b!"ac"),
  (b!"content-type", b!"ct"), (b!"accept-language", b!"al"), (b!"accept-encoding", b!"ae"), (b!"accept-ranges", b!"ar"),
  (b!"user-agent", b!"ua"), (b!"server", b!"s"), (b!"referer", b!"r"), (b!"accept", b!"a"), (b!"cookie", b!"c"),
  (b!"last-modified", b!"lm"), (b!"cache-control", b!"cc"), (b!"pragma", b!"p"), (b!"vary", b!"v"), (b!"date", b!"d"),
  (b!"expires", b!"x"), (b!"content-length", b!"cl"), (b!"etag", b!"e"), (b!"content-language", b!"la"), (b!"via", b!"vi"),
  (b!"set-cookie", b!"sc"), (b!"p3p", b!"p3"), (b!"if-modified-since", b!"ims"), (b!"if-none-match", b!"inm"),
  (b!":host", b!"h")]

/-- simple/__init__.py 92, rev_lookups. -/
def revLookups : Dict Str Str := lookups.map fun kv => (kv.2, kv.1)

/-- simple/__init__.py 84, ignore_hdrs. -/
def ignoreHdrs : List Str := [b!":status-text", b!":version"]

/-- simple/__init__.py 193-196, hdr_name. -/
def hdrName (name : Str) : Py Str :=
  match name with
  | [] => .error .index
  | c :: _ => if c = 58 then .ok name else .ok ((lookups.get? name).getD (33 :: name))

/-- The attributes of a Processor that change (last_c, last_d) and its parameters. -/
structure Simple where
  lastC : Option (Dict Str Str)
  lastD : Option (Dict Str Str)
  maxEntries : Int
  seven : Bool
  isRequest : Bool
  deriving DecidableEq, Repr

/-- `if d` for a dictionary or None. -/
def truthy : Option (Dict Str Str) → Bool
  | some (_ :: _) => true
  | _ => false

/-- simple/__init__.py 88-111, __init__.  `max_entries` is 9999999999 unless given. -/
def simpleInit (maxEntries : Int) (seven isRequest : Bool) : Simple :=
  { lastC := none, lastD := none, maxEntries := maxEntries, seven := seven, isRequest := isRequest }

/-- simple/__init__.py 77-82, date_hdrs. -/
def dateHdrs : List Str := [b!"last-modified", b!"if-modified-since", b!"date", b!"expires"]

/-- What the "date" parameter uses.  `enc v` is `"%x" % parse_date(v)`, `dec v` is `format_date(int(v, 16))`; `none` stands
for ValueError. -/
structure Dates where
  enc : Str → Option Str
  dec : Str → Option Str

/-- simple/__init__.py 132-136: the value that is sent.  `D` is `none` without the "date" parameter. -/
def sendValue (D : Option Dates) (name value : Str) : Str :=
  match D with
  | none => value
  | some d => if name ∈ dateHdrs then (d.enc value).getD value else value

/-- simple/__init__.py 167-173: the value that is read for a name from the table. -/
def readValue (D : Option Dates) (name value : Str) : Str :=
  match D with
  | none => value
  | some d => if name ∈ dateHdrs then (d.dec value).getD value else value

/-- simple/__init__.py 118-121 and 124-127: the common part of the tests. -/
def sameAsLast (st : Simple) (name value : Str) (nrefs : Nat) : Bool :=
  truthy st.lastC && decide ((st.lastC.getD []).get? name = some value) && decide ((nrefs : Int) < st.maxEntries)

/-- The loop simple/__init__.py 116-138. -/
def compressLoop (D : Option Dates) (st : Simple) : List (Str × Str) → Dict Str Str → List Str → Py (Dict Str Str × List Str)
  | [], headers, refs => .ok (headers, refs)
  | (name, value) :: items, headers, refs =>
    match name with
    | [] => .error .index
    | c :: _ =>
      if c ≠ 58 ∧ sameAsLast st name value refs.length = true then compressLoop D st items headers (refs ++ [name])
      else if name = b!":host" ∧ sameAsLast st name value refs.length = true then
        compressLoop D st items headers (refs ++ [b!"h"])
      else if name ∈ ignoreHdrs then compressLoop D st items headers refs
      else
        match hdrName name with
        | .error e => .error e
        | .ok n => compressLoop D st items (headers.set n (sendValue D name value)) refs

/-- simple/__init__.py 145-149. -/
def simpleFmt : Fmt := { delimiter := [10], valsep := [58], host := b!"h", version := b!"H/2" }

/-- simple/__init__.py 140-141. -/
def addRefs (headers : Dict Str Str) (refs : List Str) : Py (Dict Str Str) :=
  if refs = [] then .ok headers
  else do
    let names ← refs.mapM hdrName
    pure (headers.set b!"ref" (joinWith [44] names))

/-- simple/__init__.py 142-144 and 188-190. -/
def moveHost (headers : Dict Str Str) : Dict Str Str :=
  match headers.get? b!"h" with
  | some v => (headers.set b!":host" v).del b!"h"
  | none => headers

/-- simple/__init__.py 113-150, compress.  `ord` is the order in which a Python 2 dictionary lists
its items. -/
def simpleCompress (D : Option Dates) (ord : Dict Str Str → Dict Str Str) (st : Simple) (inHeaders : Dict Str Str) : Py (Simple × Str) := do
  let (headers, refs) ← compressLoop D st inHeaders [] []
  let headers ← addRefs headers refs
  let msg := formatHttp1 simpleFmt (ord (moveHost headers))
  pure ({ st with lastC := some inHeaders }, if st.seven then sevenEncode msg else msg)

/-- simple/__init__.py 157-166: where the header `name` goes (`none`: nowhere). -/
def expandName (name : Str) : Py (Option Str) :=
  if name = b!"ref" then .ok none
  else if name = b!":host" then .ok (some b!"h")
  else match name with
    | [] => .error .index
    | c :: rest =>
      if c = 58 then .ok (some name)
      else if c = 33 then .ok (some rest)
      else match revLookups.get? name with
        | some n => .ok (some n)
        | none => .error .key

/-- simple/__init__.py 159-173: the value of the header `name`, which goes to `n`. -/
def expandValue (D : Option Dates) (name n value : Str) : Str :=
  if name.head? = some 58 ∨ name.head? = some 33 then value else readValue D n value

/-- The loop simple/__init__.py 156-173 over the items of `headers`. -/
def expandLoop (D : Option Dates) : List (Str × Str) → Dict Str Str → Py (Dict Str Str)
  | [], out => .ok out
  | (name, value) :: items, out =>
    match expandName name with
    | .error e => .error e
    | .ok none => expandLoop D items out
    | .ok (some n) => expandLoop D items (out.set n (expandValue D name n value))

/-- simple/__init__.py 177-180: the name a reference stands for. -/
def refName (ref : Str) : Py Str :=
  match ref with
  | [] => .error .index
  | c :: rest =>
    if c = 33 then .ok rest
    else match revLookups.get? ref with
      | some n => .ok n
      | none => .error .key

/-- The loop simple/__init__.py 176-186. -/
def refLoop (lastD : Dict Str Str) : List Str → Dict Str Str → Py (Dict Str Str)
  | [], out => .ok out
  | ref :: refs, out =>
    match refName ref with
    | .error e => .error e
    | .ok name =>
      match lastD.get? name with
      | some v => refLoop lastD refs (out.set name v)
      | none => .error .key

/-- simple/__init__.py 174-186. -/
def resolveRefs (lastD : Option (Dict Str Str)) (headers out : Dict Str Str) : Py (Dict Str Str) :=
  match headers.get? b!"ref" with
  | some refs => if truthy lastD then refLoop (lastD.getD []) (splitOn 44 refs) out else .ok out
  | none => .ok out

/-- simple/__init__.py 152-191, decompress. -/
def simpleDecompress (D : Option Dates) (ord : Dict Str Str → Dict Str Str) (st : Simple) (compressed : Str) :
    Py (Simple × Dict Str Str) := do
  let headers ← parseHttp1 lower isWs (if st.seven then sevenDecode compressed else compressed) st.isRequest b!"h"
  let out ← expandLoop D (ord headers) []
  let out ← resolveRefs st.lastD headers out
  pure ({ st with lastD := some out }, moveHost out)

/-- A session as compare_compressors.py runs it: every message is compressed and decompressed by
the same object. -/
def simpleSession (D : Option Dates) (ord : Dict Str Str → Dict Str Str) (st : Simple) :
    List (Dict Str Str) → Py (List (Dict Str Str))
  | [] => .ok []
  | h :: hs => do
    let (st, c) ← simpleCompress D ord st h
    let (st, out) ← simpleDecompress D ord st c
    let outs ← simpleSession D ord st hs
    pure (out :: outs)

end Verif.Text
