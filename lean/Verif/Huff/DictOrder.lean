import Verif.Huff.Model
/-
The order in which CPython 2.7 iterates over a dictionary whose keys are small natural numbers, as
`depth_to_sym.iteritems()` does (huffman.py 121).  This is not in /repo; it follows CPython 2.7's
Objects/dictobject.c (lookdict 319-400, insertdict_by_entry, dictresize 624-, PyDict_SetItem) and
`hash(n) == n`.  Keys are never deleted here.
-/
namespace Verif.Huff
open Verif

/-- A slot array. -/
abbrev Slots (β : Type) := List (Option (Nat × β))

/-- Follow the probe sequence to a free slot. -/
def probe {β : Type} (tab : Slots β) : Nat → Nat → Nat → Nat
  | 0, i, _ => i % tab.length
  | fuel + 1, i, perturb =>
    match tab[i % tab.length]? with
    | some (some _) => probe tab fuel (5 * i + perturb + 1) (perturb / 32)
    | _ => i % tab.length

/-- Put a new key into the array. -/
def place {β : Type} (tab : Slots β) (e : Nat × β) : Slots β :=
  tab.set (probe tab (16 + tab.length) e.1 e.1) (some e)

/-- The smallest power of two above `n`, at least 8. -/
def tableSize : Nat → Nat → Nat → Nat
  | 0, _, size => size
  | fuel + 1, n, size => if size ≤ n then tableSize fuel n (size * 2) else size

/-- Insert a new key and grow the array when it is two thirds full. -/
def grow {β : Type} (tab : Slots β) (e : Nat × β) : Slots β :=
  let tab := place tab e
  let used := (tab.filterMap id).length
  if tab.length * 2 ≤ used * 3 then
    (tab.filterMap id).foldl place (List.replicate (tableSize 64 (4 * used) 8) none)
  else tab

/-- The iteration order of a dictionary with these entries, given in the order of insertion. -/
def cpyOrder {β : Type} (d : List (Nat × β)) : List (Nat × β) :=
  (d.foldl grow (List.replicate 8 none)).filterMap id

end Verif.Huff
