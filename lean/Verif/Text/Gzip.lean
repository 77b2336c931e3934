import Verif.Text.Model
import Verif.Zlib.Spec
/-
Models of compressor/http1_gzip/__init__.py and compressor/http1_huffman/__init__.py, which differ only in the strategy
given to zlib.  In Python 2, where texts are bytes; in Python 3 the constructor raises TypeError.
-/
namespace Verif.Text
open Verif Verif.Zlib

/-- http1_gzip/__init__.py 9-14 and http1_huffman/__init__.py 9-14: the constructor; what the compressor makes of the
dictionary is dropped. -/
def gzipInit (L : Lib) (dictionary : Str) : Py L.Z := do
  let z ← L.new 15
  .ok (L.zip z dictionary).1

/-- http1_gzip/__init__.py 16-21 and http1_huffman/__init__.py 16-21, compress. -/
def gzipCompress (L : Lib) (z : L.Z) (inHeaders : Dict Str Str) : L.Z × Str := L.zip z (formatHttp1 defaultFmt inHeaders)

/-- compressor/__init__.py 38-44, decompress, which these classes inherit. -/
def gzipDecompress (_compressed : Str) : Py (Dict Str Str) := .error .notImpl

/-- The frames of some messages. -/
def gzipAll (L : Lib) : L.Z → List (Dict Str Str) → L.Z × List Str
  | z, [] => (z, [])
  | z, h :: hs =>
    let (z, f) := gzipCompress L z h
    let (z, fs) := gzipAll L z hs
    (z, f :: fs)

end Verif.Text
