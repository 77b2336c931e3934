import Verif.Delta2.Wire
/-
What the properties of delta2 assume: Huffman objects that were built from a table, and operations
that have the fields of their opcode with values that can be packed.
-/
namespace Verif.Delta2
open Verif Verif.Huff

/-- The object was built from some table of the symbols 0 to 256, with some arithmetic on the weights and
some order of dictionaries. -/
def IsCoder (h : Huffman) : Prop :=
  ∃ (W : Type) (ops : Weights W) (ord : Dict Nat (List Nat) → List (Nat × List Nat)) (table : FreqTable)
    (divisor : Nat) (tree : Huff.Tree W),
    (table.map (·.1)).Perm (List.range 257) ∧ buildCodeTree ops table divisor = .ok tree ∧
    (∀ d, discover tree.size [(tree, 0)] [] = .ok d → (ord d).Perm d) ∧ buildCodeTable ord tree = .ok h

/-- The index can be packed. -/
def IntOk : IntPack → Int → Prop
  | .int8, v => 0 ≤ v ∧ v < 2 ^ 8
  | .int16, v => 0 ≤ v ∧ v < 2 ^ 16
  | .varint, v => 0 ≤ v

/-- Has the operation this field? -/
def Op.has (op : Op) : Field → Bool
  | .index => op.index.isSome
  | .indexStart => op.indexStart.isSome
  | .key => op.key.isSome
  | .val => op.val.isSome

/-- Toggles have an index; ranges a start and an index; clones an index and a value; the others a key and a value. -/
def shapeOf : Opcode → List Field
  | .stoggl | .etoggl => [.index]
  | .strang | .etrang => [.indexStart, .index]
  | .sclone | .eclone => [.index, .val]
  | .skvsto | .ekvsto => [.key, .val]

/-- The operation has exactly the fields of its kind. -/
def Shaped (op : Op) : Prop := ∀ f, op.has f = decide (f ∈ shapeOf op.opcode)

/-- The fields can be packed. -/
structure ValsOk (p : IntPack) (op : Op) : Prop where
  index : ∀ v, op.index = some v → IntOk p v
  start : ∀ v, op.indexStart = some v → IntOk p v
  key : ∀ s, op.key = some s → ∀ c ∈ s, c < 256
  val : ∀ s, op.val = some s → ∀ c ∈ s, c < 256

/-- Shaped, and the fields can be packed. -/
structure OpOk (p : IntPack) (op : Op) : Prop where
  shaped : Shaped op
  vals : ValsOk p op

/-- Operations under their opcode, which can be packed. -/
def GroupsOk (p : IntPack) (gs : Groups) : Prop := ∀ g ∈ gs, ∀ op ∈ g.2, op.opcode = g.1 ∧ OpOk p op

/-- A toggle of index `i`. -/
def toggle (opcode : Opcode) (i : Int) : Op := { opcode := opcode, index := some i }

/-- A range of toggles. -/
def range (opcode : Opcode) (start last : Int) : Op :=
  { opcode := opcode, index := some last, indexStart := some start }

/-- The indices `start`, ..., `last`. -/
def interval (start last : Int) : List Int := (List.range (last + 1 - start).toNat).map fun k : Nat => start + (k : Int)

end Verif.Delta2
