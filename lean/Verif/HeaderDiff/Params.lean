import Verif.HeaderDiff.Model
/-
Model of the parameters of compressor/headerdiff/__init__.py (lines 67-138) and of the constructor of the codec
(headerDiffCodec.py 92-119).  `int` is Python's `int(s)`, a parameter: `none` is ValueError.
-/
namespace Verif.HeaderDiff
open Verif

/-- __init__.py 73-79, parse_bool. -/
def parseBool : Option Str → Bool
  | none => true
  | some value => if lower value = b!"false" then false else true

/-- `value.strip("\"'")`. -/
def stripQuotes (s : Str) : Str := stripBy (fun c => c == 34 || c == 39) s

/-- __init__.py 81-97, parse_delta. -/
def parseDelta (int : Str → Option Int) : Option Str → DeltaType
  | none => .full
  | some value =>
    let value := stripWs value
    match int value with
    | some n => .max n
    | none => if value ≠ [] then .bound (stripQuotes value) else .full

/-- `int(value)`; `int(None)` is a TypeError. -/
def intOf (int : Str → Option Int) : Option Str → Py Int
  | none => .error .type
  | some s => match int s with
    | none => .error .value
    | some n => .ok n

/-- __init__.py 114-120, param_dict.  Keys that no one reads are left out. -/
structure Params where
  buffer : Int := 32768
  deflate : Option Int := none
  delta : Bool := true
  deltaType : DeltaType := .full
  huffman : Bool := false
  deriving DecidableEq, Repr

/-- __init__.py 122-126: the name and the value of a parameter. -/
def splitParam (param : Str) : Str × Option Str :=
  if param.contains 61 then
    match splitOnce 61 param with
    | some (n, v) => (n, some v)
    | none => (param, none)
  else (param, none)

/-- __init__.py 99-105, 121-130: one parameter. -/
def readParam (int : Str → Option Int) (p : Params) (param : Str) : Py Params :=
  let (name, value) := splitParam param
  if name = b!"buffer" then do
    let n ← intOf int value
    .ok { p with buffer := n }
  else if name = b!"deflate" then do
    let n ← intOf int value
    .ok { p with deflate := some n }
  else if name = b!"delta" then .ok { p with delta := parseBool value }
  else if name = b!"delta_type" then .ok { p with deltaType := parseDelta int value }
  else if name = b!"huffman" then .ok { p with huffman := parseBool value }
  else .ok p

/-- __init__.py 121-130: all parameters. -/
def readParams (int : Str → Option Int) : Params → List Str → Py Params
  | p, [] => .ok p
  | p, x :: xs => do
    let p ← readParam int p x
    readParams int p xs

/-- `s.replace("\\coma", ",")`: from the left, without overlaps. -/
def replaceComa : Str → Str
  | 92 :: 99 :: 111 :: 109 :: 97 :: s => 44 :: replaceComa s
  | c :: s => c :: replaceComa s
  | [] => []

/-- headerDiffCodec.py 107-109. -/
def codecDelta : DeltaType → DeltaType
  | .bound limits => .bound (replaceComa limits)
  | t => t

/-- __init__.py 132-140 and headerDiffCodec.py 92-119: the parameters of the codec of a Processor.  `coder` is the coder
of the direction of the Processor (headerDiffCodec.py 111-113). -/
def processorCfg (p : Params) (coder : HCodec) (isRequest : Bool) : Cfg where
  maxSize := p.buffer
  deltaUsage := p.delta
  deltaType := codecDelta p.deltaType
  huffman := if p.huffman then some coder else none
  isRequest := isRequest

end Verif.HeaderDiff
