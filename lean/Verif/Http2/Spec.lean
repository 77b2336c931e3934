import Verif.Py
/-
Specifications used by the http2 property theorems.  Nothing here refers to the model.
-/
namespace Verif.Http2.Spec
open Verif

/-- RFC 7541 section 5.1, the continuation bytes:
`while I >= 128: emit I % 128 + 128; I = I / 128` then `emit I`. -/
def hpackTail (v : Nat) : List Nat :=
  if v < 128 then [v] else (v % 128 + 128) :: hpackTail (v / 128)
decreasing_by omega

/-- RFC 7541 section 5.1: integer `v` with an `n`-bit prefix in a byte whose other bits are
`flags`.  For `n = 0` there is no prefix byte. -/
def hpackInt (flags n v : Nat) : List Nat :=
  if v < 2 ^ n - 1 then [flags + v]
  else (if n = 0 then [] else [flags + (2 ^ n - 1)]) ++ hpackTail (v - (2 ^ n - 1))

/-- HPACK size of an entry. -/
def hdrSize (h : Hdr) : Nat := h.1.length + h.2.length + 32

/-- HPACK size of a list of headers. -/
def hdrsSize (l : List Hdr) : Nat := (l.map hdrSize).sum

/-- Two lists contain the same headers. -/
def SameSet (a b : List Hdr) : Prop := ∀ h, h ∈ a ↔ h ∈ b

end Verif.Http2.Spec
