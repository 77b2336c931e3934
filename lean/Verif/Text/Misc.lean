import Verif.Py
/-
Models of compressor/spdy3/__init__.py and of enc_uvarint in compressor/bohe/bohe.py.
-/
namespace Verif.Text
open Verif

/-! ### spdy3 -/

/-- `s.encode('ascii')`; UnicodeEncodeError is a ValueError. -/
def encodeAscii (s : Str) : Py Str := if s.all (fun c => decide (c < 128)) then .ok s else .error .value

/-- spdy3/__init__.py 43-47: one header. -/
def spdy3Header (key val : Str) : Py Str := do
  let a ← packL key.length
  let k ← encodeAscii key
  let b ← packL val.length
  let v ← encodeAscii val
  pure (a ++ k ++ b ++ v)

/-- spdy3/__init__.py 26-48, Spdy3HeadersFormat.  The frame length, the stream number and the number
of headers are computed but not used (39-42 are comments). -/
def spdy3Format : List (Str × Str) → Py Str
  | [] => .ok []
  | (key, val) :: items => do
    let h ← spdy3Header key val
    let rest ← spdy3Format items
    pure (h ++ rest)

/-- spdy3/__init__.py 18-24, compress.  `zip` stands for the zlib stream: compress and flush. -/
def spdy3Compress {σ : Type} (zip : σ → Str → σ × Str) (z : σ) (items : List (Str × Str)) : Py (σ × Str) := do
  let raw ← spdy3Format items
  let payload := raw.drop 12
  let (z, c) := zip z payload
  pure (z, raw.take 12 ++ c)

/-! ### bohe: unsigned varints -/

/-- The loop bohe.py 47-50, at most `fuel` rounds. -/
def uvarintLoop : Nat → Nat → Str
  | 0, _ => []
  | fuel + 1, val =>
    let shift := val >>> 7
    ((val &&& 0x7f) ||| (if shift ≠ 0 then 0x80 else 0x00)) :: (if shift ≠ 0 then uvarintLoop fuel shift else [])

/-- bohe.py 45-50 for one number; `val` rounds are enough (one if it is 0). -/
def uvarint (val : Int) : Str := uvarintLoop ((max 0 val).toNat + 1) (max 0 val).toNat

/-- bohe.py 34-51, enc_uvarint on a string.  `int` is Python's `int(s)`. -/
def encUvarint (int : Str → Py Int) (val : Str) : Py Str :=
  if val = [] then .ok (uvarint 0)
  else do
    let ns ← (splitOn 0 val).mapM int
    pure (ns.flatMap uvarint)

end Verif.Text
