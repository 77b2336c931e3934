import Verif.Bohe.Model
/-
What a message of delta_bohe says: independent of the state of the codec.
-/
namespace Verif.DeltaBohe.Spec
open Verif Verif.Bohe

/-- The parts of a header's value: a cookie is split at semicolons, and spaces in front of its crumbs do not count. -/
def parts (k v : Str) : List Str :=
  if k = b!"cookie" then (splitOn 59 v).map fun x => x.dropWhile (· = 32) else [v]

/-- A name and the code of a part of one of its values. -/
def Says (L : Libs) (headers : List Hdr) (kv : Hdr) : Prop :=
  ∃ v, (kv.1, v) ∈ headers ∧ ∃ x ∈ parts kv.1 v, encodeField L kv.1 x = .ok kv.2

/-- All parts can be encoded. -/
def Encodable (L : Libs) (headers : List Hdr) : Prop :=
  ∀ k v, (k, v) ∈ headers → ∀ x ∈ parts k v, ∃ e, encodeField L k x = .ok e

/-- The codes of the crumbs of a cookie are different. -/
def Crumbs (L : Libs) (headers : List Hdr) : Prop :=
  ∀ v, (b!"cookie", v) ∈ headers → ((parts b!"cookie" v).map (encodeField L b!"cookie")).Pairwise fun a b => ¬ (a = b)

/-- Values put together; nothing if there are none. -/
def joined (sep : Str) : List Str → Option Str
  | [] => none
  | v :: vs => some (vs.foldl (fun a x => a ++ sep ++ x) v)

end Verif.DeltaBohe.Spec
