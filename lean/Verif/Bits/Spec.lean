import Verif.Py
/-
Specification of the bit bucket: a tape of bits with a read position.
-/
namespace Verif.Bits.Spec
open Verif

/-- The `w` least significant bits of `v`, most significant first. -/
def natBits (w v : Nat) : List Bool := (List.range w).map fun i => v.testBit (w - 1 - i)

/-- The bits of a byte, most significant first. -/
def byteBits (b : Nat) : List Bool := natBits 8 b

/-- The bits of a byte string. -/
def bitsOf (bytes : List Nat) : List Bool := bytes.flatMap byteBits

/-- The number with these bits, most significant first. -/
def toNat (bits : List Bool) : Nat := bits.foldl (fun n b => 2 * n + b.toNat) 0

/-- Zeros up to the next byte boundary. -/
def padZeros (n : Nat) : List Bool := List.replicate ((8 - n % 8) % 8) false

/-- Bits packed into bytes from the most significant bit on, the last byte filled with zeros. -/
def pack : List Bool → List Nat
  | [] => []
  | b :: bs => toNat (((b :: bs) ++ List.replicate 8 false).take 8) :: pack (bs.drop 7)
  termination_by bits => bits.length

/-- What has been written, and how far it has been read. -/
structure Tape where
  bits : List Bool
  pos : Nat
  deriving DecidableEq, Repr

/-- The operations on a bit bucket. -/
inductive Op where
  | store (bytes : List Nat) (n : Nat)
  | storeBit (b : Bool)
  | store4 (v : Nat)
  | store8 (v : Nat)
  | store16 (v : Nat)
  | store32 (v : Nat)
  | pad
  | advance
  | get (n : Nat)
  | getBit
  | get4
  | get8
  | get16
  | get32
  deriving DecidableEq, Repr

/-- What an operation returns. -/
inductive Res where
  | none
  | bytes (bs : List Nat) (n : Nat)
  | num (v : Nat)
  | raised (e : PyErr)
  deriving DecidableEq, Repr

/-- Write bits. -/
def Tape.write (t : Tape) (bits : List Bool) : Tape := { t with bits := t.bits ++ bits }

/-- Read `n` bits and deliver them through `f`; too few left: nothing happens. -/
def Tape.read (t : Tape) (n : Nat) (f : List Bool → Res) : Tape × Res :=
  if t.pos + n ≤ t.bits.length then ({ t with pos := t.pos + n }, f ((t.bits.drop t.pos).take n))
  else (t, .raised .standard)

/-- What each operation must do. -/
def step (t : Tape) : Op → Tape × Res
  | .store bytes n => (t.write ((bitsOf bytes).take n), .none)
  | .storeBit b => (t.write [b], .none)
  | .store4 v => (t.write (natBits 4 v), .none)
  | .store8 v => if v < 2 ^ 8 then (t.write (natBits 8 v), .none) else (t, .raised .struct)
  | .store16 v => if v < 2 ^ 16 then (t.write (natBits 16 v), .none) else (t, .raised .struct)
  | .store32 v => if v < 2 ^ 32 then (t.write (natBits 32 v), .none) else (t, .raised .struct)
  | .pad => (t.write (padZeros t.bits.length), .none)
  | .advance => ({ t with pos := t.pos + (8 - t.pos % 8) % 8 }, .none)
  | .get n => t.read n fun l => .bytes (pack l) n
  | .getBit => t.read 1 fun l => .num (toNat l)
  | .get4 => t.read 4 fun l => .num (toNat l)
  | .get8 => t.read 8 fun l => .num (toNat l)
  | .get16 => t.read 16 fun l => .num (toNat l)
  | .get32 => t.read 32 fun l => .num (toNat l)

/-- Run operations, collecting the results. -/
def run (t : Tape) : List Op → Tape × List Res
  | [] => (t, [])
  | op :: ops => ((run (step t op).1 ops).1, (step t op).2 :: (run (step t op).1 ops).2)

/-- A store must be given bytes, exactly as many as the bits need. -/
def Op.Ok : Op → Prop
  | .store bytes n => (∀ b ∈ bytes, b < 256) ∧ bytes.length = (n + 7) / 8
  | _ => True

end Verif.Bits.Spec
