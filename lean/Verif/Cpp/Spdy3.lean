import Verif.Py
/-
Model of SPDY3Formatter and DoSPDY3CoDec in compressor/delta/spdy4_headers_sample.cc (the copy in delta_bohe is the same).

A `vector<char>` is a list of bytes (`char` is written here as a number below 256).  `int` and `size_t` are unbounded, except
where a value is stored in 32 or 24 bits.  zlib is a parameter: `zip` is `deflate` with Z_SYNC_FLUSH on all of the input, with
enough room for its output (186 asks for `deflateBound` bytes).
-/
namespace Verif.Cpp.Spdy3
open Verif

/-- spdy4_headers_sample.cc 215-220, AppendInt32: what is appended for a `uint32_t`. -/
def int32 (val : Nat) : Str :=
  let v := val % 4294967296
  [v / 16777216 % 256, v / 65536 % 256, v / 256 % 256, v % 256]

/-- spdy4_headers_sample.cc 222-226, AppendInt24. -/
def int24 (val : Nat) : Str :=
  let v := val % 4294967296
  [v / 65536 % 256, v / 256 % 256, v % 256]

/-- spdy4_headers_sample.cc 207-213, OverwriteInt24.  `.index` stands for an access outside the vector. -/
def overwriteInt24 (out : Str) (pos val : Nat) : Py Str :=
  let v := val % 4294967296
  if pos + 2 < out.length then
    .ok (((out.set pos (v / 65536 % 256)).set (pos + 1) (v / 256 % 256)).set (pos + 2) (v % 256))
  else .error .index

/-- spdy4_headers_sample.cc 231-236: the loop of FormatHeaderBlock. -/
def blockLoop (tbc : Str) : List Hdr → Str
  | [] => tbc
  | (key, val) :: frame =>
    let tbc := tbc ++ int32 key.length
    let tbc := tbc ++ key
    let tbc := tbc ++ int32 val.length
    let tbc := tbc ++ val
    blockLoop tbc frame

/-- spdy4_headers_sample.cc 228-237, FormatHeaderBlock. -/
def formatHeaderBlock (tbc : Str) (frame : List Hdr) : Str := blockLoop (tbc ++ int32 frame.length) frame

/-- The object: the zlib stream and `to_be_compressed`. -/
structure Formatter (σ : Type) where
  z : σ
  tbc : Str

/-- spdy4_headers_sample.cc 180-205, Compress: the output is appended, and the unused room given back. -/
def compress {σ : Type} (zip : σ → Str → σ × Str) (z : σ) (out tbc : Str) : σ × Str :=
  let r := zip z tbc
  (r.1, out ++ r.2)

/-- spdy4_headers_sample.cc 239-252, FormatHeaders. -/
def formatHeaders {σ : Type} (zip : σ → Str → σ × Str) (f : Formatter σ) (out : Str) (frame : List Hdr) :
    Py (Formatter σ × Str) := do
  let out := out ++ [128]
  let out := out ++ [3]
  let out := out ++ [0]
  let out := out ++ [8]
  let out := out ++ [0]
  let pin := out.length
  let out := out ++ int24 0
  let out := out ++ int32 1
  let tbc := formatHeaderBlock f.tbc frame
  let (z, out) := compress zip f.z out tbc
  let out ← overwriteInt24 out pin (out.length - pin)
  pure (⟨z, []⟩, out)

/-- spdy4_headers_sample.cc 266-273: one pass over the frames; `output` is empty at the end of each round. -/
def pass {σ : Type} (zip : σ → Str → σ × Str) (f : Formatter σ) : List (List Hdr) → Nat →
    Py (Formatter σ × List Str × Nat)
  | [], size => .ok (f, [], size)
  | request :: frames, size => do
    let (f, out) ← formatHeaders zip f [] request
    let (f, outs, size) ← pass zip f frames (size + out.length)
    pure (f, out :: outs, size)

/-- spdy4_headers_sample.cc 256-278, DoSPDY3CoDec with a given number of iterations (the clock decides how many): the total
size.  The outputs are given too; the code drops them. -/
def doSpdy3 {σ : Type} (zip : σ → Str → σ × Str) (frames : List (List Hdr)) :
    Nat → Formatter σ → Nat → Py (List Str × Nat)
  | 0, _, size => .ok ([], size)
  | n + 1, f, size => do
    let (f, outs, size) ← pass zip f frames size
    let (more, size) ← doSpdy3 zip frames n f size
    pure (outs ++ more, size)

end Verif.Cpp.Spdy3
