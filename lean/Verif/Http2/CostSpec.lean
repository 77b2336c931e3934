import Verif.Http2.Spec
/-
Vocabulary for the size properties of the http2 codec (independent of the model).
-/
namespace Verif.Http2.Spec
open Verif

/-- Number of bytes of a header's name and value. -/
def hdrBytes (h : Hdr) : Nat := h.1.length + h.2.length

/-- Number of bytes of the names and values of a list of headers. -/
def hdrsBytes (l : List Hdr) : Nat := (l.map hdrBytes).sum

/-- Number of base-128 digits of a number (at least one). -/
def digits128 (v : Nat) : Nat := if v < 128 then 1 else 1 + digits128 (v / 128)
termination_by v
decreasing_by omega

/-- What one header may cost: either it is named by its index, twice at most, or it is spelt out. -/
def hdrCost (indexBytes : Nat) (h : Hdr) : Nat :=
  max (2 * indexBytes) (indexBytes + digits128 h.1.length + h.1.length + digits128 h.2.length + h.2.length)

end Verif.Http2.Spec
