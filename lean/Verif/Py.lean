/-
Python building blocks shared by all models.

A Python string is a list of code points (`Str`).  Exceptions are values (`Py α`).
A dictionary is an association list in iteration order.
-/
namespace Verif

/-- A Python string: a list of code points (bytes for Python 2 `str`). -/
abbrev Str := List Nat

/-- A header: `(name, value)`. -/
abbrev Hdr := Str × Str

/-- The Python exceptions that the modelled code can raise. -/
inductive PyErr where
  | index        -- IndexError
  | key          -- KeyError
  | value        -- ValueError
  | struct       -- struct.error
  | standard     -- StandardError / Exception raised explicitly
  | type         -- TypeError
  | assertion    -- AssertionError
  | zeroDiv      -- ZeroDivisionError
  | name         -- NameError
  | attribute    -- AttributeError
  | memory       -- MemoryError
  | notImpl      -- NotImplementedError
  | overflow     -- OverflowError
  | outOfFuel    -- never a Python exception: the model's loop bound was hit
  deriving DecidableEq, Repr

/-- A computation that may raise. -/
abbrev Py := Except PyErr

/-- `b!"abc"` is the list of code points of a string literal. -/
syntax:max "b!" str : term
macro_rules
  | `(b! $s:str) => do
    let cs := s.getString.toList.map fun c => Lean.Syntax.mkNumLit (toString c.toNat)
    `(([$[$(cs.toArray)],*] : Str))


/-- Equality of results is decidable (used for concrete checks). -/
instance instDecEqPy {α : Type} [DecidableEq α] : DecidableEq (Py α)
  | .ok a, .ok b => if h : a = b then isTrue (by rw [h]) else isFalse (by simpa using h)
  | .error a, .error b => if h : a = b then isTrue (by rw [h]) else isFalse (by simpa using h)
  | .ok _, .error _ => isFalse (by simp)
  | .error _, .ok _ => isFalse (by simp)

/-- `struct.pack("!B", n)`. -/
def packB (n : Nat) : Py (List Nat) :=
  if n < 256 then .ok [n] else .error .struct

/-- `struct.pack("!H", n)`. -/
def packH (n : Nat) : Py (List Nat) :=
  if n < 65536 then .ok [n / 256, n % 256] else .error .struct

/-- `struct.pack("!L", n)`. -/
def packL (n : Nat) : Py (List Nat) :=
  if n < 4294967296 then .ok [n / 16777216, n / 65536 % 256, n / 256 % 256, n % 256]
  else .error .struct

/-- `s.split(c)` for a one-character separator. -/
def splitOn (c : Nat) : Str → List Str
  | [] => [[]]
  | x :: xs =>
    if x = c then [] :: splitOn c xs
    else match splitOn c xs with
      | [] => [[x]]
      | p :: ps => (x :: p) :: ps

/-- `s.split(c, 1)`: `none` if `c` does not occur (a one-element list in Python). -/
def splitOnce (c : Nat) : Str → Option (Str × Str)
  | [] => none
  | x :: xs =>
    if x = c then some ([], xs)
    else match splitOnce c xs with
      | none => none
      | some (a, b) => some (x :: a, b)

/-- `sep.join(parts)`. -/
def joinWith (sep : Str) : List Str → Str
  | [] => []
  | [p] => p
  | p :: ps => p ++ sep ++ joinWith sep ps

/-- Remove leading and trailing characters satisfying `p`. -/
def stripBy (p : Nat → Bool) (s : Str) : Str :=
  ((s.dropWhile p).reverse.dropWhile p).reverse

/-- `s.strip(' ')`. -/
def stripSpace (s : Str) : Str := stripBy (· == 32) s

/-- The characters `str.strip()` and `str.split(None)` treat as whitespace
(`\t \n \v \f \r` and space, the ASCII whitespace). -/
def isWs (c : Nat) : Bool := (9 ≤ c && c ≤ 13) || c == 32

/-- `s.strip()`. -/
def stripWs (s : Str) : Str := stripBy isWs s

/-- `c.lower()` for ASCII. -/
def lowerChar (c : Nat) : Nat := if 65 ≤ c ∧ c ≤ 90 then c + 32 else c

/-- `s.lower()` (ASCII letters only). -/
def lower (s : Str) : Str := s.map lowerChar

/-! ### Dictionaries -/

/-- A dictionary in iteration order. -/
abbrev Dict (α β : Type) := List (α × β)

namespace Dict
variable {α β : Type} [DecidableEq α]

/-- `d.get(k)`. -/
def get? : Dict α β → α → Option β
  | [], _ => none
  | (k, v) :: d, x => if k = x then some v else get? d x

/-- `k in d`. -/
def has (d : Dict α β) (x : α) : Bool := (get? d x).isSome

/-- `d[k] = v`: replaces in place, or appends. -/
def set : Dict α β → α → β → Dict α β
  | [], x, y => [(x, y)]
  | (k, v) :: d, x, y => if k = x then (k, y) :: d else (k, v) :: set d x y

/-- `del d[k]` (no effect when absent; callers check presence first). -/
def del : Dict α β → α → Dict α β
  | [], _ => []
  | (k, v) :: d, x => if k = x then d else (k, v) :: del d x

/-- Keys in iteration order. -/
def keys (d : Dict α β) : List α := d.map (·.1)

/-- A dictionary value: no key occurs twice. -/
def WF (d : Dict α β) : Prop := d.keys.Nodup

end Dict

end Verif
