import Verif.Py
/-
Model of compressor/hyper_hpack/__init__.py.  The package `hpack` is a parameter.

Simplification: `n.lower()` is left out, since `self.sensitive` is always empty.
-/
namespace Verif.Text.Hyper
open Verif

/-- The package `hpack`: encoders, decoders, and what they do. -/
structure Hpack where
  E : Type
  D : Type
  newE : E
  newD : D
  encode : E → List (Str × Str × Bool) → Py (E × Str)
  decode : D → Str → Py (D × List Hdr)

/-- hyper_hpack/__init__.py 5-9: the state. -/
structure Proc (L : Hpack) where
  compressor : L.E
  decompressor : L.D
  sensitive : List Str

/-- hyper_hpack/__init__.py 5-9, `__init__`. -/
def Proc.init (L : Hpack) : Proc L := ⟨L.newE, L.newD, []⟩

/-- hyper_hpack/__init__.py 11-13, compress; `headers` are the items of the dictionary, in its order. -/
def compress {L : Hpack} (p : Proc L) (headers : List Hdr) : Py (Proc L × Str) := do
  let (e, out) ← L.encode p.compressor (headers.map fun h => (h.1, h.2, p.sensitive.contains h.1))
  return ({ p with compressor := e }, out)

/-- hyper_hpack/__init__.py 15-16, decompress. -/
def decompress {L : Hpack} (p : Proc L) (compressed : Str) : Py (Proc L × List Hdr) := do
  let (d, out) ← L.decode p.decompressor compressed
  return ({ p with decompressor := d }, out)

/-- lib/processors.py 124-132: each message is compressed and decompressed by the same processor. -/
def session {L : Hpack} : Proc L → List (List Hdr) → Py (List (List Hdr))
  | _, [] => .ok []
  | p, m :: ms => do
    let (p, blob) ← compress p m
    let (p, out) ← decompress p blob
    let rest ← session p ms
    return out :: rest

end Verif.Text.Hyper
