import Verif.Bits.Spec
/-
What the C++ bit bucket must do: a tape of bits with a read position.
-/
namespace Verif.Cpp.Spec
open Verif Bits.Spec

/-- The methods of the bit bucket (StoreBits8/16/32 apart). -/
inductive Op where
  | bit (b : Bool)
  | bits (bytes : List Nat) (n : Nat)
  | bytes (bs : List Nat)
  | aligned (bs : List Nat)
  | get (n : Nat)
  | getBit
  | seek (pos : Nat)
  deriving DecidableEq, Repr

/-- What a method delivers. -/
inductive Res where
  | none
  | bytes (bs : List Nat)
  | bit (b : Bool)
  deriving DecidableEq, Repr

/-- What each method must do. -/
def step (t : Tape) : Op → Tape × Res
  | .bit b => (t.write [b], .none)
  | .bits bytes n => (t.write ((bitsOf bytes).take n), .none)
  | .bytes bs => (t.write (bitsOf bs), .none)
  | .aligned bs => (t.write (padZeros t.bits.length ++ bitsOf bs), .none)
  | .get n => ({ t with pos := t.pos + n }, .bytes (pack ((t.bits.drop t.pos).take n)))
  | .getBit => ({ t with pos := t.pos + 1 }, .bit ((t.bits.drop t.pos).headD false))
  | .seek p => ({ t with pos := p }, .none)

/-- The calls the class is made for: bytes are bytes, as many as the bits need, and nothing is read
that has not been written. -/
def Legal (t : Tape) : Op → Prop
  | .bits bytes n => (∀ b ∈ bytes, b < 256) ∧ bytes.length = (n + 7) / 8
  | .bytes bs => ∀ b ∈ bs, b < 256
  | .aligned bs => ∀ b ∈ bs, b < 256
  | .get n => t.pos + n ≤ t.bits.length
  | .getBit => t.pos < t.bits.length
  | _ => True

/-- A whole sequence of calls. -/
def LegalAll : Tape → List Op → Prop
  | _, [] => True
  | t, op :: ops => Legal t op ∧ LegalAll (step t op).1 ops

/-- What a sequence of calls must deliver. -/
def run (t : Tape) : List Op → Tape × List Res
  | [] => (t, [])
  | op :: ops => ((run (step t op).1 ops).1, (step t op).2 :: (run (step t op).1 ops).2)

end Verif.Cpp.Spec
