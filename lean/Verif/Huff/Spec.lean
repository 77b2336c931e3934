import Verif.Huff.Model
import Mathlib.Algebra.Order.Ring.Rat
import Mathlib.Algebra.BigOperators.Group.List.Basic
/-
What a Huffman code has to be, stated on lists of code words.
-/
namespace Verif.Huff.Spec
open Verif

/-- No code word is a prefix of another one (in particular no two are equal). -/
def PrefixFree (cs : List (List Bool)) : Prop :=
  ∀ (i j : Nat) (ci cj : List Bool), cs[i]? = some ci → cs[j]? = some cj → ci <+: cj → i = j

/-- Every long enough bit string begins with a code word. -/
def Complete (cs : List (List Bool)) : Prop :=
  ∃ n, ∀ x : List Bool, n ≤ x.length → ∃ c ∈ cs, c <+: x

/-- Following the bits from this node ends at the leaf of `sym` with the last bit. -/
def Leads : DTree → List Bool → Nat → Prop
  | .leaf s, [], sym => s = sym
  | .node l r, b :: bs, sym => Leads (if b then r else l) bs sym
  | _, _, _ => False

/-- The symbol sits at this depth in the code tree. -/
inductive AtDepth {W : Type} (sym : Nat) : Tree W → Nat → Prop
  | leaf (w : W) : AtDepth sym (.leaf w sym) 0
  | left (w : W) (d n : Nat) (l r : Tree W) : AtDepth sym l n → AtDepth sym (.node w d l r) (n + 1)
  | right (w : W) (d n : Nat) (l r : Tree W) : AtDepth sym r n → AtDepth sym (.node w d l r) (n + 1)

/-- How often a symbol with this count is taken to occur: never seen counts as 1/512. -/
def weight (freq : Nat) : ℚ := if freq = 0 then 1 / 512 else freq

/-- Total length of a message in which the symbols occur as often as the table says. -/
def cost (table : List (Nat × Nat)) (codes : List (List Bool)) : ℚ :=
  (table.map fun e => weight e.2 * (((codes[e.1]?).getD []).length : ℚ)).sum

end Verif.Huff.Spec
