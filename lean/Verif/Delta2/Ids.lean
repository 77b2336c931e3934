import Verif.Py
/-
Model of IDStore, compressor/delta2/common_utils.py 53-76; the ids are never negative.
-/
namespace Verif.Delta2
open Verif

/-- common_utils.py 55-62: the returned ids (a set) and the counter; `minimum_id` is 0. -/
structure IdStore where
  ids : List Nat := []
  next : Nat := 0
  maxId : Nat
  deriving DecidableEq, Repr

/-- common_utils.py 64-72, GetNext.  `set.pop` returns the first element in the order `ord`. -/
def getNext (ord : List Nat → List Nat) (s : IdStore) : IdStore × Nat :=
  match ord s.ids with
  | x :: _ => ({ s with ids := s.ids.erase x }, x)
  | [] =>
    let n := s.next + 1
    let n := if s.maxId ≠ 0 ∧ n ≥ s.maxId then 0 else n
    ({ s with next := n }, n)

/-- common_utils.py 74-76, DoneWithId. -/
def doneWithId (s : IdStore) (id : Nat) : IdStore :=
  if id ∈ s.ids then s else { s with ids := s.ids ++ [id] }

end Verif.Delta2
