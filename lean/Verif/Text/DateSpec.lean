import Verif.Py
/-
Which texts are dates (C104), independent of the model.
-/
namespace Verif.Text.Spec
open Verif

/-- Letters, digits and underscores. -/
def WordChar (c : Nat) : Prop := (48 ≤ c ∧ c ≤ 57) ∨ (65 ≤ c ∧ c ≤ 90) ∨ (97 ≤ c ∧ c ≤ 122) ∨ c = 95

/-- `n` letters, digits or underscores. -/
def Letters (n : Nat) (s : Str) : Prop := s.length = n ∧ ∀ c ∈ s, WordChar c

/-- `n` digits. -/
def Digits (n : Nat) (s : Str) : Prop := s.length = n ∧ ∀ c ∈ s, 48 ≤ c ∧ c ≤ 57

/-- A date of RFC 822 as updated by RFC 1123, like "Sun, 06 Nov 1994 08:49:37 GMT". -/
def Rfc1123 (s : Str) : Prop := ∃ wd d mon y h m sec, Letters 3 wd ∧ Digits 2 d ∧ Letters 3 mon ∧ Digits 4 y ∧ Digits 2 h ∧
  Digits 2 m ∧ Digits 2 sec ∧
  s = wd ++ b!", " ++ d ++ b!" " ++ mon ++ b!" " ++ y ++ b!" " ++ h ++ b!":" ++ m ++ b!":" ++ sec ++ b!" GMT"

/-- A date of RFC 850, like "Sunday, 06-Nov-94 08:49:37 GMT". -/
def Rfc850 (s : Str) : Prop := ∃ n wd d mon y h m sec, 6 ≤ n ∧ n ≤ 9 ∧ Letters n wd ∧ Digits 2 d ∧ Letters 3 mon ∧ Digits 2 y ∧
  Digits 2 h ∧ Digits 2 m ∧ Digits 2 sec ∧
  s = wd ++ b!", " ++ d ++ b!"-" ++ mon ++ b!"-" ++ y ++ b!" " ++ h ++ b!":" ++ m ++ b!":" ++ sec ++ b!" GMT"

/-- A date of C's asctime, like "Sun Nov  6 08:49:37 1994". -/
def Asctime (s : Str) : Prop := ∃ wd mon d1 d2 h m sec y, Letters 3 wd ∧ Letters 3 mon ∧ (Digits 1 d1 ∨ d1 = b!" ") ∧ Digits 1 d2 ∧
  Digits 2 h ∧ Digits 2 m ∧ Digits 2 sec ∧ Digits 4 y ∧
  s = wd ++ b!" " ++ mon ++ b!" " ++ d1 ++ d2 ++ b!" " ++ h ++ b!":" ++ m ++ b!":" ++ sec ++ b!" " ++ y

/-- A date, perhaps with a line feed behind it. -/
def DateText (v : Str) : Prop := ∃ s e, v = s ++ e ∧ (e = [] ∨ e = [10]) ∧ (Rfc1123 s ∨ Rfc850 s ∨ Asctime s)

/-- Two-digit years are between 1969 and 2068. -/
def fullYear (y : Int) : Int := if y < 69 then y + 2000 else if y < 100 then y + 1900 else y

/-- The last `name=value` among some parameters says this. -/
def LastValue (params : List Str) (name value : Str) : Prop :=
  ∃ before after, params = before ++ [name ++ [61] ++ value] ++ after ∧ 61 ∉ name ∧ ∀ q ∈ after, ∀ w, q ≠ name ++ [61] ++ w

end Verif.Text.Spec
