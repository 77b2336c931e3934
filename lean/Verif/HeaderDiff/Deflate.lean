import Verif.HeaderDiff.Processor
import Verif.Zlib.Spec
/-
Model of the Deflate layer of compressor/headerdiff/headerDiffCodec.py (`windowSize` is not `None`).
-/
namespace Verif.HeaderDiff
open Verif Verif.Zlib

/-- `decomp.decompress(s)`; zlib.error is an exception class of its own, here `standard`. -/
def unzipPy (L : Lib) (u : L.U) (s : Str) : Py (L.U × Str) :=
  match L.unzip u s with
  | none => .error .standard
  | some r => .ok r

/-- headerDiffCodec.py 121-137: the two zlib contexts of initCodec; the decompressor reads what the compressor makes of
the dictionary. -/
def zInit (L : Lib) (windowSize : Int) (dictionary : Str) : Py (L.Z × L.U) := do
  let z ← L.new windowSize
  if dictionary = [] then .ok (z, L.start)
  else
    let (z, data) := L.zip z dictionary
    let (u, _) ← unzipPy L L.start data
    .ok (z, u)

/-- headerDiffCodec.py 349-465, encodeHeaders with deflate. -/
def zEncodeHeaders (L : Lib) (order : Order) (cfg : Cfg) (z : L.Z) (st : Enc) (hs : List Hdr) :
    (L.Z × Enc) × Py (List Nat) :=
  let st := grow st
  match packB hs.length with
  | .error e => ((z, st), .error e)
  | .ok n =>
    match encodeLoop order cfg st hs with
    | (st, .error e) => ((z, st), .error e)
    | (st, .ok x) =>
      let (z, data) := L.zip z (n ++ x)
      ((z, st), frame data)

/-- headerDiffCodec.py 171-290, decodeHeaders with deflate: line 179 gives the decompressor the whole `stream`, not
`stream[8:]`. -/
def zDecodeHeaders (L : Lib) (cfg : Cfg) (u : L.U) (d : Dec) (stream : List Nat) : Py ((L.U × Dec) × List Hdr) := do
  let (u, s) ← unzipPy L u stream
  let (nb, s) ← readByte s
  let (d, hs) ← decodeLoop cfg nb d s
  .ok ((u, d), hs)

/-- Encoding some messages, up to the first exception. -/
def zEncodeAll (L : Lib) (order : Order) (cfg : Cfg) : L.Z → Enc → List (List Hdr) → (L.Z × Enc) × Py (List (List Nat))
  | z, st, [] => ((z, st), .ok [])
  | z, st, m :: ms =>
    match zEncodeHeaders L order cfg z st m with
    | (s, .error e) => (s, .error e)
    | ((z, st), .ok f) =>
      match zEncodeAll L order cfg z st ms with
      | (s, .error e) => (s, .error e)
      | (s, .ok fs) => (s, .ok (f :: fs))

/-- Decoding some frames. -/
def zDecodeAll (L : Lib) (cfg : Cfg) : L.U → Dec → List (List Nat) → Py ((L.U × Dec) × List (List Hdr))
  | u, d, [] => .ok ((u, d), [])
  | u, d, f :: fs => do
    let ((u, d), hs) ← zDecodeHeaders L cfg u d f
    let (s, rest) ← zDecodeAll L cfg u d fs
    .ok (s, hs :: rest)

end Verif.HeaderDiff
