import Verif.Text.Simple
import Verif.Zlib.Spec
/-
Model of the rest of compressor/simple/__init__.py: its parameters, dates, and zlib.  Python's `int`, the functions of the
modules email.utils and calendar, and zlib are external; they are parameters here.
-/
namespace Verif.Text
open Verif Verif.Zlib

/-! ### dates -/

/-- `\w` of the module re, for byte strings. -/
def isWordChar (c : Nat) : Bool := (48 ≤ c && c ≤ 57) || (65 ≤ c && c ≤ 90) || (97 ≤ c && c ≤ 122) || c == 95

/-- One place of a pattern. -/
inductive Place where
  | word | digit | digitOrSpace
  | lit (c : Nat)

def Place.fits : Place → Nat → Bool
  | .word, c => isWordChar c
  | .digit, c => 48 ≤ c && c ≤ 57
  | .digitOrSpace, c => c == 32 || (48 ≤ c && c ≤ 57)
  | .lit d, c => c == d

/-- A pattern followed by `$`: the end, or a line feed at the end. -/
def fitsAll : List Place → Str → Bool
  | [], v => v == [] || v == [10]
  | _ :: _, [] => false
  | p :: ps, c :: v => p.fits c && fitsAll ps v

def lits (s : Str) : List Place := s.map .lit
def words (n : Nat) : List Place := List.replicate n .word
def digits (n : Nat) : List Place := List.replicate n .digit
/-- `[0-9]{2}:[0-9]{2}:[0-9]{2}` -/
def clock : List Place := digits 2 ++ lits b!":" ++ digits 2 ++ lits b!":" ++ digits 2

/-- simple/__init__.py 211-214, the three forms of DATE; the second begins with six to nine word characters. -/
def datePatterns : List (List Place) :=
  [words 3 ++ lits b!", " ++ digits 2 ++ lits b!" " ++ words 3 ++ lits b!" " ++ digits 4 ++ lits b!" " ++ clock ++ lits b!" GMT"] ++
  [6, 7, 8, 9].map (fun n =>
    words n ++ lits b!", " ++ digits 2 ++ lits b!"-" ++ words 3 ++ lits b!"-" ++ digits 2 ++ lits b!" " ++ clock ++ lits b!" GMT") ++
  [words 3 ++ lits b!" " ++ words 3 ++ lits b!" " ++ [.digitOrSpace, .digit] ++ lits b!" " ++ clock ++ lits b!" " ++ digits 4]

/-- simple/__init__.py 218: `re.match(r"%s$" % DATE, value, re.VERBOSE)`. -/
def dateMatch (value : Str) : Bool := datePatterns.any fun p => fitsAll p value

/-- The external functions. -/
structure DateLib where
  /-- email.utils.parsedate: the year and the rest of the tuple. -/
  parsedate : Str → Option (Int × List Int)
  /-- calendar.timegm; `none` is ValueError. -/
  timegm : Int × List Int → Option Int
  /-- email.utils.formatdate; `none` is ValueError. -/
  formatdate : Int → Option Str
  /-- `int(value, 16)`; `none` is ValueError. -/
  int16 : Str → Option Int

/-- simple/__init__.py 216-230, parse_date; `none` is ValueError. -/
def parseDate (C : DateLib) (value : Str) : Option Int :=
  if dateMatch value then
    match C.parsedate value with
    | none => none
    | some (year, rest) =>
      C.timegm (if year < 100 then (if year > 68 then year + 1900 else year + 2000) else year, rest)
  else none

def hexDigit (n : Nat) : Nat := if n < 10 then 48 + n else 87 + n

def hexNat (n : Nat) : Str := if n < 16 then [hexDigit n] else hexNat (n / 16) ++ [hexDigit (n % 16)]

/-- Python's `"%x" % t`. -/
def hexInt : Int → Str
  | .ofNat n => hexNat n
  | .negSucc n => 45 :: hexNat (n + 1)

/-- simple/__init__.py 135 and 169. -/
def dates (C : DateLib) : Dates where
  enc v := (parseDate C v).map hexInt
  dec v := (C.int16 v).bind C.formatdate

/-! ### parameters and zlib -/

/-- simple/__init__.py 109: `dict([i.split("=", 1) for i in params if "=" in i])`. -/
def paramDict (params : List Str) : Dict Str Str :=
  params.foldl (fun d i => match splitOnce 61 i with
    | some (name, value) => d.set name value
    | none => d) []

/-- A Processor: what is in `Simple`, whether dates are compressed, and with "huffman" the two zlib objects. -/
structure SimpleP (L : Lib) where
  st : Simple
  date : Bool
  zlib : Option (L.Z × L.U)

/-- simple/__init__.py 88-111, __init__.  `int` is Python's `int` of a string; `big` (line 86) is its default. -/
def simpleNew (int : Str → Option Int) (L : Lib) (isRequest : Bool) (params : List Str) : Py (SimpleP L) := do
  let zlib ← if b!"seven" ∈ params then .ok none
    else if b!"huffman" ∈ params then do
      let z ← L.new 15
      .ok (some (z, L.start))
    else .ok none
  match int (((paramDict params).get? b!"max_entries").getD b!"9999999999") with
  | none => .error .value
  | some n => .ok { st := simpleInit n (decide (b!"seven" ∈ params)) isRequest, date := decide (b!"date" ∈ params), zlib := zlib }

/-- The dates of a Processor. -/
def SimpleP.dates {L : Lib} (C : DateLib) (p : SimpleP L) : Option Dates := if p.date then some (Text.dates C) else none

/-- simple/__init__.py 113-150, compress, with 198-202, huffman_encode. -/
def procCompress {L : Lib} (C : DateLib) (ord : Dict Str Str → Dict Str Str) (p : SimpleP L) (inHeaders : Dict Str Str) :
    Py (SimpleP L × Str) := do
  let (st, msg) ← simpleCompress (p.dates C) ord p.st inHeaders
  match p.zlib with
  | none => .ok ({ p with st := st }, msg)
  | some (z, u) =>
    let (z, blob) := L.zip z msg
    .ok ({ p with st := st, zlib := some (z, u) }, blob)

/-- simple/__init__.py 152-191, decompress, with 204-208, huffman_decode.  `flush` is the `flush` of a decompressor object
(its argument is a size of a buffer); zlib.error is `standard`. -/
def procDecompress {L : Lib} (C : DateLib) (flush : L.U → Option (L.U × Str)) (ord : Dict Str Str → Dict Str Str)
    (p : SimpleP L) (compressed : Str) : Py (SimpleP L × Dict Str Str) :=
  match p.zlib with
  | none => do
    let (st, out) ← simpleDecompress (p.dates C) ord p.st compressed
    .ok ({ p with st := st }, out)
  | some (z, u) =>
    match L.unzip u compressed with
    | none => .error .standard
    | some (u, a) =>
      match flush u with
      | none => .error .standard
      | some (u, b) => do
        let (st, out) ← simpleDecompress (p.dates C) ord p.st (a ++ b)
        .ok ({ p with st := st, zlib := some (z, u) }, out)

/-- A session: every message is compressed and decompressed by the same object. -/
def procSession {L : Lib} (C : DateLib) (flush : L.U → Option (L.U × Str)) (ord : Dict Str Str → Dict Str Str)
    (p : SimpleP L) : List (Dict Str Str) → Py (List (Dict Str Str))
  | [] => .ok []
  | h :: hs => do
    let (p, c) ← procCompress C ord p h
    let (p, out) ← procDecompress C flush ord p c
    let outs ← procSession C flush ord p hs
    .ok (out :: outs)

end Verif.Text
