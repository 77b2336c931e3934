import Verif.Text.Spec
import Verif.Bits.Spec
/-
Reference readers for bohe's formats, and what the directives of a Cache-Control header mean.
-/
namespace Verif.Bohe.Spec
open Verif Verif.Text.Spec Verif.Bits.Spec

/-! ### Byte formats -/

/-- `n` bytes. -/
def readBytes (n : Nat) (s : List Nat) : Option (List Nat × List Nat) :=
  if n ≤ s.length then some (s.take n, s.drop n) else none

/-- A string preceded by its length as a varint. -/
def readField (s : List Nat) : Option (List Nat × List Nat) := (readLeb s).bind fun (n, s) => readBytes n s

/-- A string preceded by its length in two bytes. -/
def readField16 : List Nat → Option (List Nat × List Nat)
  | a :: b :: s => readBytes (256 * a + b) s
  | _ => none

/-- Items up to the end. -/
def readMany {α : Type} (item : List Nat → Option (α × List Nat)) : Nat → List Nat → Option (List α)
  | _, [] => some []
  | 0, _ :: _ => none
  | fuel + 1, x :: s => (item (x :: s)).bind fun (a, s) => (readMany item fuel s).map (a :: ·)

/-- A cookie: an underscore, name and value. -/
def readCookie : List Nat → Option ((Str × Str) × List Nat)
  | 95 :: s => (readField s).bind fun (k, s) => (readField s).map fun (v, s) => ((k, v), s)
  | _ => none

/-- What is said about a cookie in a Set-Cookie header. -/
structure Cookie where
  name : Str
  value : Str
  path : Str
  domain : Str
  time : Nat
  deriving DecidableEq, Repr

/-- A cookie in the encoding of Set-Cookie: a dot, name, value, path, domain, a number. -/
def readSetCookie : List Nat → Option (Cookie × List Nat)
  | 46 :: s => (readField s).bind fun (n, s) => (readField s).bind fun (v, s) => (readField16 s).bind fun (p, s) =>
      (readField16 s).bind fun (d, s) => (readLeb s).map fun (t, s) => (⟨n, v, p, d, t⟩, s)
  | _ => none

/-- Cookies in lists that are separated by NUL. -/
def readSetCookies : Nat → List Nat → Option (List Cookie)
  | _, [] => some []
  | 0, _ :: _ => none
  | fuel + 1, 0 :: s => readSetCookies fuel s
  | fuel + 1, x :: s => (readSetCookie (x :: s)).bind fun (c, s) => (readSetCookies fuel s).map (c :: ·)

/-- Entity tags: their number, then each with its length. -/
def readTags (s : List Nat) : Option (List Str) :=
  (readLeb s).bind fun (n, s) => (readMany readField s.length s).bind fun l => if l.length = n then some l else none

/-- Hexadecimal digits (lower case). -/
def hexDigit (n : Nat) : Nat := if n < 10 then 48 + n else 87 + n

/-- A byte string in hexadecimal. -/
def hex (s : Str) : Str := s.flatMap fun c => [hexDigit (c / 16), hexDigit (c % 16)]

/-- Base64 digits. -/
def b64Digit (n : Nat) : Nat :=
  if n < 26 then 65 + n else if n < 52 then 71 + n else if n < 62 then n - 4 else if n = 62 then 43 else 47

/-- A byte string in base64. -/
def b64 : Str → Str
  | [] => []
  | [a] => [b64Digit (a / 4), b64Digit (16 * (a % 4)), 61, 61]
  | [a, b] => [b64Digit (a / 4), b64Digit (16 * (a % 4) + b / 16), b64Digit (4 * (b % 16)), 61]
  | a :: b :: c :: s =>
    b64Digit (a / 4) :: b64Digit (16 * (a % 4) + b / 16) :: b64Digit (4 * (b % 16) + c / 64) :: b64Digit (c % 64) :: b64 s

/-! ### Cache-Control -/

/-- The parts of the header: between commas, or NULs if there were several headers. -/
def ccParts (val : Str) : List Str := (splitOn 0 val).flatMap (splitOn 44)

/-- The name of a part, in lower case. -/
def ccName (part : Str) : Str := lower (stripWs (part.takeWhile (· ≠ 61)))

/-- The argument of a part, in lower case. -/
def ccArg (part : Str) : Str := lower (stripWs ((part.dropWhile (· ≠ 61)).drop 1))

/-- What is known about a directive: `none` if it does not occur, `some none` if it occurs without argument, else
the argument of its last occurrence. -/
def directive (val m : Str) : Option (Option Str) :=
  if ∃ p ∈ ccParts val, 61 ∉ p ∧ ccName p = m then some none
  else ((ccParts val).filter fun p => decide (61 ∈ p ∧ ccName p = m)).getLast?.map fun p => some (ccArg p)

/-! ### Frames -/

/-- The first symbol, with a prefix code. -/
def readSym (codes : List (List Bool)) (bits : List Bool) : Option (Nat × List Bool) :=
  match codes.findIdx? (fun c => c.isPrefixOf bits) with
  | some i => some (i, bits.drop (codes[i]?.getD []).length)
  | none => none

/-- Symbols up to the end symbol 256. -/
def readString (codes : List (List Bool)) : Nat → List Bool → Option (Str × List Bool)
  | 0, _ => none
  | fuel + 1, bits => (readSym codes bits).bind fun (c, bits) =>
      if c = 256 then some ([], bits) else (readString codes fuel bits).map fun (s, bits) => (c :: s, bits)

/-- `n` bits as a number. -/
def readNum (n : Nat) (bits : List Bool) : Option (Nat × List Bool) :=
  if n ≤ bits.length then some (toNat (bits.take n), bits.drop n) else none

/-- `n` bytes from bits. -/
def readOctets : Nat → List Bool → Option (Str × List Bool)
  | 0, bits => some ([], bits)
  | n + 1, bits => (readNum 8 bits).bind fun (c, bits) => (readOctets n bits).map fun (s, bits) => (c :: s, bits)

/-- One bit. -/
def readBit : List Bool → Option (Bool × List Bool)
  | [] => none
  | b :: bits => some (b, bits)

/-- A value in the prefix code, with the length of its code in units of four bytes in front of it. -/
def readCoded (codes : List (List Bool)) (bits : List Bool) : Option (Str × List Bool) :=
  (readNum 30 bits).bind fun (q, bits) => (readString codes (bits.length + 1) bits).bind fun (v, rest) =>
    if q = (bits.length - rest.length + 7) / 8 / 4 then some (v, rest) else none

/-- One header: a number of the table (`ids`), or a name with its length; for a name of the table with a binary
encoding (`binary`) a 1, for other names that are not in the table a 0; whether there are several values; a length in
units of four bytes; the value, in binary or in the prefix code. -/
def readHeader (ids binary : List Str) (codes : List (List Bool)) (bits : List Bool) :
    Option ((Str × Str × Bool) × List Bool) :=
  (readNum 8 bits).bind fun (n, bits) =>
    if n < 128 then
      (if n = 0 then none else ids[n - 1]?).bind fun k =>
        if k ∈ binary then
          (readBit bits).bind fun (b, bits) => if b = false then none else
          (readBit bits).bind fun (several, bits) => (readNum 30 bits).bind fun (q, bits) =>
            (readOctets (4 * q) bits).map fun (v, bits) => ((k, v, several), bits)
        else
          (readBit bits).bind fun (several, bits) => (readCoded codes bits).map fun (v, bits) => ((k, v, several), bits)
    else
      (readOctets (n - 128) bits).bind fun (k, bits) =>
        (readBit bits).bind fun (b, bits) => if b = true then none else
        (readBit bits).bind fun (several, bits) => (readCoded codes bits).map fun (v, bits) => ((k, v, several), bits)

/-- Headers, as long as there are at least 8 bits. -/
def readFrame (ids binary : List Str) (codes : List (List Bool)) : Nat → List Bool → Option (List (Str × Str × Bool))
  | 0, _ => none
  | fuel + 1, bits =>
    if bits.length < 8 then some []
    else (readHeader ids binary codes bits).bind fun (h, bits) => (readFrame ids binary codes fuel bits).map (h :: ·)

end Verif.Bohe.Spec
