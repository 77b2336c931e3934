import Verif.DeltaBohe.Spec
/-
What a message of delta2_bohe says and what is to be heard of it: independent of the state of the codec.  `enc` is the encoding of a
value under a name.
-/
namespace Verif.Delta2Bohe.Spec
open Verif
open Verif.DeltaBohe.Spec (parts joined)

/-- The names of a message with the codes of the parts of their values. -/
def said (enc : Str → Str → Py Str) (headers : List Hdr) : List (Str × Py Str) :=
  headers.flatMap fun kv => (parts kv.1 kv.2).map fun x => (kv.1, enc kv.1 x)

/-- The bytes of a name with a code. -/
def bytes (x : Str × Py Str) : Nat := x.1.length + match x.2 with
  | .ok e => e.length
  | .error _ => 0

/-- The bytes of what is said. -/
def weight (enc : Str → Str → Py Str) (headers : List Hdr) : Nat := ((said enc headers).map bytes).sum

/-- A dictionary of headers that can be encoded; the crumbs of a cookie have different codes. -/
structure Sendable (enc : Str → Str → Py Str) (headers : List Hdr) : Prop where
  names : (headers.map (·.1)).Nodup
  encodable : ∀ x ∈ said enc headers, ∃ e, x.2 = .ok e
  crumbs : ∀ v, (b!"cookie", v) ∈ headers → ((parts b!"cookie" v).map (enc b!"cookie")).Nodup

/-- The headers that are heard are those of the message with encoded values.  The crumbs of a cookie come in any order; between them
there is a semicolon and a space, and so there is in place of every NUL. -/
structure Heard (enc : Str → Str → Py Str) (headers : List Hdr) (out : Dict Str Str) : Prop where
  plain : ∀ k, k ≠ b!"cookie" → ∀ w, out.get? k = some w ↔ ∃ v, (k, v) ∈ headers ∧ enc k v = .ok w
  cookie : ∀ v, (b!"cookie", v) ∈ headers → ∃ l : List Str, (l.map Except.ok).Perm ((parts b!"cookie" v).map (enc b!"cookie")) ∧
    out.get? b!"cookie" = joined [59, 32] (l.map fun w => w.flatMap fun x => if x = 0 then [59, 32] else [x])
  none : (∀ v, (b!"cookie", v) ∉ headers) → out.get? b!"cookie" = none

/-- The position of the newest header of a list with a name, the first header left out. -/
def Newest (l : List Hdr) (k : Str) (j : Nat) : Prop := 0 < j ∧ (∃ v, l[j]? = some (k, v)) ∧ ∀ i > j, ∀ v, l[i]? ≠ some (k, v)

/-- The headers fit into the storage. -/
def Within (l : List Hdr) : Prop := l.length ≤ 1024 ∧ (l.map fun h => h.1.length + h.2.length).sum ≤ 16384

/-- The number of the `j`-th header that is stored: from 65 to 65536, then from 65 again. -/
def number (j : Nat) : Nat := 65 + j % 65472

end Verif.Delta2Bohe.Spec
