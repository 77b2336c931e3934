import Verif.Delta2.Wire
/-
Vocabulary for cut frames of delta2 (C126).
-/
namespace Verif.Delta2

/-- The first `m` of some operations, under their opcodes. -/
def takeOps : Nat → Groups → Groups
  | _, [] => []
  | m, (oc, ops) :: gs => (oc, ops.take m) :: takeOps (m - ops.length) gs

end Verif.Delta2
