import Verif.HeaderDiff.Model
/-
Model of compressor/headerdiff/__init__.py (the Processor), and sessions.
The parsing of the parameters (lines 73-128) is in `Params.lean`; here a Processor has any parameters.
-/
namespace Verif.HeaderDiff
open Verif

/-- __init__.py 49-59, split_from_dict; the items are in the order of `d.items()`. -/
def splitFromDict (items : List (Str × Str)) : List Hdr :=
  items.flatMap fun kv =>
    if kv.1 = b!"cookie" then (splitOn 59 kv.2).map fun vs => (kv.1, stripWs vs)
    else (splitOn 0 kv.2).map fun vs => (kv.1, stripWs vs)

/-- __init__.py 150-157: one turn of the loop of decompress. -/
def joinHeader (hdrs : Dict Str Str) (h : Hdr) : Dict Str Str :=
  match Dict.get? hdrs h.1 with
  | some old => if h.1 = b!"cookie" then Dict.set hdrs h.1 (old ++ b!";" ++ h.2) else Dict.set hdrs h.1 (old ++ [0] ++ h.2)
  | none => Dict.set hdrs h.1 h.2

/-- __init__.py 140-145, compress; `items` is the order of `d.items()`. -/
def compress (order : Order) (items : Dict Str Str → List (Str × Str)) (cfg : Cfg) (st : Enc) (hdrs : Dict Str Str) :
    Enc × Py (List Nat) :=
  encodeHeaders order cfg st (splitFromDict (items hdrs))

/-- __init__.py 147-159, decompress. -/
def decompress (cfg : Cfg) (d : Dec) (compressed : List Nat) : Py (Dec × Dict Str Str) := do
  let (d, headers) ← decodeHeaders cfg d compressed
  .ok (d, headers.foldl joinHeader [])

/-! ### Sessions -/

/-- Encoding some messages, up to the first exception. -/
def encodeAll (order : Order) (cfg : Cfg) : Enc → List (List Hdr) → Enc × Py (List (List Nat))
  | st, [] => (st, .ok [])
  | st, m :: ms =>
    match encodeHeaders order cfg st m with
    | (st, .error e) => (st, .error e)
    | (st, .ok f) =>
      match encodeAll order cfg st ms with
      | (st, .error e) => (st, .error e)
      | (st, .ok fs) => (st, .ok (f :: fs))

/-- Decoding some frames. -/
def decodeAll (cfg : Cfg) : Dec → List (List Nat) → Py (Dec × List (List Hdr))
  | d, [] => .ok (d, [])
  | d, f :: fs => do
    let (d, hs) ← decodeHeaders cfg d f
    let (d, rest) ← decodeAll cfg d fs
    .ok (d, hs :: rest)

/-- Compressing some messages, each with its order of items. -/
def compressAll (order : Order) (cfg : Cfg) (st : Enc) (ms : List (Dict Str Str × (Dict Str Str → List (Str × Str)))) :
    Enc × Py (List (List Nat)) :=
  encodeAll order cfg st (ms.map fun m => splitFromDict (m.2 m.1))

/-- Decompressing some frames. -/
def decompressAll (cfg : Cfg) : Dec → List (List Nat) → Py (Dec × List (Dict Str Str))
  | d, [] => .ok (d, [])
  | d, f :: fs => do
    let (d, h) ← decompress cfg d f
    let (d, rest) ← decompressAll cfg d fs
    .ok (d, h :: rest)

end Verif.HeaderDiff
