import Verif.Py
/-
The grammar of an http2 header block, for the theorems about frames that were cut.  Nothing here
refers to the model.
-/
namespace Verif.Http2.Spec
open Verif

/-- The bytes of a number in base 128, lowest digit first: all but the last have the top bit. -/
inductive Digits : List Nat → Nat → Prop
  | last (b : Nat) (h : b.testBit 7 = false) : Digits [b] (b % 128)
  | more (b : Nat) (h : b.testBit 7 = true) (w : List Nat) (n : Nat) (hw : Digits w n) :
      Digits (b :: w) (b % 128 + 128 * n)

/-- The bytes `w` after the byte `b` complete the number `v` that begins in the `p` low bits. -/
def IntAfter (p b : Nat) (w : List Nat) (v : Nat) : Prop :=
  (b % 2 ^ p ≠ 2 ^ p - 1 ∧ w = [] ∧ v = b % 2 ^ p) ∨
  (b % 2 ^ p = 2 ^ p - 1 ∧ ∃ n, Digits w n ∧ v = 2 ^ p - 1 + n)

/-- A string: its length and its characters. -/
def StringLit (w : List Nat) (s : Str) : Prop := ∃ d, Digits d s.length ∧ w = d ++ s

/-- The name of a literal, after its index: written out if this is 0. -/
def NameLit (index : Nat) (w : List Nat) : Prop :=
  (index = 0 ∧ ∃ s, StringLit w s) ∨ (index ≠ 0 ∧ w = [])

/-- One representation of a header, and how many characters of a value it ends in. -/
inductive Rep : List Nat → Nat → Prop
  | indexed (b : Nat) (h7 : b.testBit 7 = true) (w : List Nat) (i : Nat) (hi : IntAfter 7 b w i) : Rep (b :: w) 0
  | literal (b : Nat) (h7 : b.testBit 7 = false) (h6 : b.testBit 6 = true) (w : List Nat) (i : Nat)
      (hi : IntAfter 5 b w i) (wn : List Nat) (hn : NameLit i wn) (wv : List Nat) (v : Str) (hv : StringLit wv v) :
      Rep (b :: (w ++ wn ++ wv)) v.length
  | substitution (b : Nat) (h7 : b.testBit 7 = false) (h6 : b.testBit 6 = false) (w : List Nat) (i : Nat)
      (hi : IntAfter 6 b w i) (wn : List Nat) (hn : NameLit i wn) (wr : List Nat) (r : Nat) (hr : Digits wr r)
      (wv : List Nat) (v : Str) (hv : StringLit wv v) :
      Rep (b :: (w ++ wn ++ wr ++ wv)) v.length

/-- The first `m` bytes of the representations end where one of these begins or ends, or inside the value at the end of one. -/
def FairCut (reps : List (List Nat × Nat)) (m : Nat) : Prop :=
  m = 0 ∨ ∃ a r b k, reps = a ++ r :: b ∧ k ≤ r.2 ∧ m = (a.flatMap (·.1)).length + (r.1.length - k)

end Verif.Http2.Spec
