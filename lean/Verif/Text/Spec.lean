import Verif.Py
/-
Specification vocabulary for the text formats.
-/
namespace Verif.Text.Spec
open Verif

/-- What any notion of whitespace of Python satisfies: space, tab, CR, LF are whitespace, visible
ASCII characters are not. -/
structure Blank (ws : Nat → Bool) : Prop where
  space : ws 32 = true
  tab : ws 9 = true
  lf : ws 10 = true
  cr : ws 13 = true
  visible : ∀ c, 33 ≤ c → c ≤ 126 → ws c = false

/-- Not surrounded by whitespace. -/
def Trimmed (ws : Nat → Bool) (s : Str) : Prop :=
  (∀ c, s.head? = some c → ws c = false) ∧ (∀ c, s.getLast? = some c → ws c = false)

/-- A word: not empty, no whitespace. -/
def Word (ws : Nat → Bool) (s : Str) : Prop := s ≠ [] ∧ ∀ c ∈ s, ws c = false

/-- A header name as it may stand in front of a colon: not empty, lower case, one line, no colon
except possibly in front. -/
structure Name (lower : Str → Str) (k : Str) : Prop where
  nonempty : k ≠ []
  lowercase : lower k = k
  oneLine : 10 ∉ k
  colon : 58 ∉ k ∨ ∃ n, k = 58 :: n ∧ 58 ∉ n

/-- A header value: one line, and no NUL-separated part is surrounded by whitespace. -/
structure Value (ws : Nat → Bool) (v : Str) : Prop where
  oneLine : 10 ∉ v
  trimmed : ∀ a p b, v = a ++ p ++ b → (a = [] ∨ ∃ a', a = a' ++ [0]) → (b = [] ∨ ∃ b', b = 0 :: b') → 0 ∉ p →
    Trimmed ws p

/-- What is in the first line of a message, not in a header line. -/
def topNames (isRequest : Bool) : List Str :=
  if isRequest then [b!":method", b!":path", b!":version"] else [b!":version", b!":status", b!":status-text"]

/-- A header dictionary that can be written as an HTTP/1 message. -/
structure Message (lower : Str → Str) (ws : Nat → Bool) (isRequest : Bool) (host : Str) (h : Dict Str Str) : Prop where
  wf : h.WF
  kind : b!":method" ∈ h.keys ↔ isRequest = true
  names : ∀ k v, (k, v) ∈ h → k ∉ topNames isRequest → Name lower k
  values : ∀ k v, (k, v) ∈ h → k ∉ topNames isRequest → Value ws v
  method : ∀ v, isRequest = true → (b!":method", v) ∈ h → Word ws v
  path : isRequest = true → ∃ v, (b!":path", v) ∈ h ∧ Word ws v
  status : isRequest = false → ∃ v, (b!":status", v) ∈ h ∧ Word ws v
  version : ∀ v, (b!":version", v) ∈ h → if isRequest then v ≠ [] ∧ 10 ∉ v ∧ Trimmed ws v else Word ws v
  text : ∀ v, isRequest = false → (b!":status-text", v) ∈ h → v ≠ [] ∧ 10 ∉ v ∧ Trimmed ws v
  noHost : isRequest = true → host ∉ h.keys
  noPseudoHost : isRequest = false → b!":host" ∉ h.keys

/-- What a reader of the message has to see: the same headers, with the version and (in responses)
the status text filled in when the sender had none. -/
def Decoded (isRequest : Bool) (version : Str) (h out : Dict Str Str) : Prop :=
  out.WF ∧ ∀ n, out.get? n =
    if n = b!":version" then some ((h.get? b!":version").getD version)
    else if isRequest = false ∧ n = b!":status-text" then some ((h.get? b!":status-text").getD b!"?")
    else h.get? n

/-- A header dictionary that can be sent through the `simple` codec (Python 2 byte strings): names
are lower case words without colon and comma, or pseudo headers; no header is called `h`; responses
have no `:host`. -/
structure SimpleMsg (isRequest : Bool) (h : Dict Str Str) : Prop where
  wf : h.WF
  kind : b!":method" ∈ h.keys ↔ isRequest = true
  names : ∀ k ∈ h.keys, Name lower k
  plain : ∀ k ∈ h.keys, k.head? ≠ some 58 → Word isWs k ∧ 44 ∉ k ∧ k ≠ b!"h"
  values : ∀ k v, (k, v) ∈ h → k ∉ topNames isRequest → k ∉ [b!":status-text", b!":version"] → Value isWs v
  method : ∀ v, isRequest = true → (b!":method", v) ∈ h → Word isWs v
  path : isRequest = true → ∃ v, (b!":path", v) ∈ h ∧ Word isWs v
  status : isRequest = false → ∃ v, (b!":status", v) ∈ h ∧ Word isWs v
  noPseudoHost : isRequest = false → b!":host" ∉ h.keys

/-- Only ASCII characters. -/
def Ascii (h : Dict Str Str) : Prop := ∀ k v, (k, v) ∈ h → (∀ c ∈ k, c < 128) ∧ ∀ c ∈ v, c < 128

/-- The same headers apart from the two the tester leaves out. -/
def Same (h out : Dict Str Str) : Prop :=
  out.WF ∧ ∀ n, n ∉ [b!":status-text", b!":version"] → out.get? n = h.get? n

/-- A big-endian 32-bit number at the front of a byte string. -/
def word32 : List Nat → Option (Nat × List Nat)
  | a :: b :: c :: d :: rest => some (((a * 256 + b) * 256 + c) * 256 + d, rest)
  | _ => none

/-- A string preceded by its length. -/
def field (s : List Nat) : Option (List Nat × List Nat) :=
  (word32 s).bind fun (n, rest) => if n ≤ rest.length then some (rest.take n, rest.drop n) else none

/-- Reference reader of a SPDY/3 header block: `n` headers. -/
def readBlock : Nat → List Nat → Option (List (Str × Str) × List Nat)
  | 0, s => some ([], s)
  | n + 1, s => (field s).bind fun (k, s) => (field s).bind fun (v, s) =>
      (readBlock n s).map fun (l, s) => ((k, v) :: l, s)

/-- Reference reader of an unsigned LEB128 number. -/
def readLeb : List Nat → Option (Nat × List Nat)
  | [] => none
  | b :: rest =>
    if b < 128 then some (b, rest)
    else (readLeb rest).map fun (n, rest) => (b - 128 + 128 * n, rest)

end Verif.Text.Spec
