import Verif.Py
/-
zlib, as the codecs use it: an external library, of which only a contract is stated.
-/
namespace Verif.Zlib
open Verif

/-- The operations of the zlib module that the codecs use.  `zip` is `compress` followed by `flush(Z_SYNC_FLUSH)`;
`unzip` is `decompress`, where `none` stands for zlib.error. -/
structure Lib where
  Z : Type
  U : Type
  /-- `zlib.compressobj(…)` with this window size. -/
  new : Int → Py Z
  zip : Z → Str → Z × Str
  /-- `zlib.decompressobj()`. -/
  start : U
  unzip : U → Str → Option (U × Str)

/-- A block that RFC 1951 does not allow (3.2.3, 3.2.4): its type is 3, or it is stored and its second length is not the
complement of the first. -/
def BadBlock (s : Str) : Prop :=
  ∃ b rest, s = b :: rest ∧ (b / 2 % 4 = 3 ∨ (b / 2 % 4 = 0 ∧
    ∃ l0 l1 n0 n1 more, rest = l0 :: l1 :: n0 :: n1 :: more ∧ ¬ (l0 + n0 = 255 ∧ l1 + n1 = 255)))

/-- The contract.  `Paired z u`: the decompressor has read all that the compressor wrote.  (Texts are lists of numbers, of
which only those below 256 are strings; what a library does with others does not matter, so the contract does not single
them out.) -/
structure Ok (L : Lib) where
  Paired : L.Z → L.U → Prop
  /-- The window sizes of a zlib stream are accepted. -/
  new_ok : ∀ w, 9 ≤ w → w ≤ 15 → ∃ z, L.new w = .ok z ∧ Paired z L.start
  /-- A decompressor that has read all gives the text of the next part, and has read all again. -/
  unzip_zip : ∀ z u s, Paired z u → ∃ u', L.unzip u (L.zip z s).2 = some (u', s) ∧ Paired (L.zip z s).1 u'
  /-- After a part that was flushed, a block starts at the next byte, and a block that is not allowed is an error. -/
  bad_block : ∀ z u u' s t bad, Paired z u →
    L.unzip u (L.zip z s).2 = some (u', t) → BadBlock bad → L.unzip u' bad = none

end Verif.Zlib
