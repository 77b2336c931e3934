import Verif.Py
/-
Specification vocabulary for lib/, written without the model's functions.
-/
namespace Verif.Lib.Spec
open Verif

/-- `p` is one of the pieces of `v` between separators `c`. -/
def IsPiece (c : Nat) (v p : Str) : Prop :=
  c ∉ p ∧ ∃ a b, v = a ++ p ++ b ∧ (a = [] ∨ ∃ a', a = a' ++ [c]) ∧ (b = [] ∨ ∃ b', b = c :: b')

/-- `x` is `p` without the surrounding spaces. -/
def IsTrim (p x : Str) : Prop :=
  (∃ i j, p = List.replicate i 32 ++ x ++ List.replicate j 32) ∧
  x.head? ≠ some 32 ∧ x.getLast? ≠ some 32

/-- The separator of the pieces of a header. -/
def sepOf (name : Str) : Nat := if name = b!"cookie" then 59 else 0

/-- The tester sees `name: x` in `d`. -/
def Shows (d : Dict Str Str) (name x : Str) : Prop :=
  name ≠ b!":version" ∧ name ≠ b!":status-text" ∧ name ≠ b!"connection" ∧
  ∃ v p, (name, v) ∈ d ∧ IsPiece (sepOf name) v p ∧ IsTrim p x

/-- Two header dictionaries the tester must not distinguish. -/
def Equiv (a b : Dict Str Str) : Prop := ∀ name x, Shows a name x ↔ Shows b name x

/-- Names removed before a message is compressed. -/
def HopByHop (d : Dict Str Str) (name : Str) : Prop :=
  name ∈ [b!":status-text", b!":version", b!"keep-alive", b!"connection"] ∨
  ∃ v p, (b!"connection", v) ∈ d ∧ IsPiece 44 v p ∧ IsTrim p name

/-- The values of all headers with a name, in order. -/
def valuesOf (l : List Hdr) (name : Str) : List Str := (l.filter fun h => h.1 = name).map (·.2)

/-- `ks` lists the elements of `l` once each in order of first appearance. -/
def FirstAppearance (ks l : List Str) : Prop :=
  (∀ k, k ∈ ks ↔ k ∈ l) ∧ ks.Pairwise fun a b => l.idxOf a < l.idxOf b

end Verif.Lib.Spec
