import Verif.Text.Hyper
/-
Property C122: hyper_hpack.
-/
namespace Verif.Props
open Verif Verif.Text.Hyper

/-- What `hpack` promises: an encoder and a decoder that are in step stay so, and the decoder gets the headers, if none of them
is sensitive (the package then answers with other objects). -/
structure HpackOk (L : Hpack) where
  InStep : L.E → L.D → Prop
  new_ok : InStep L.newE L.newD
  ok : ∀ e d hs, InStep e d → (∀ h ∈ hs, h.2.2 = false) → ∃ e' blob d', L.encode e hs = .ok (e', blob) ∧
    L.decode d blob = .ok (d', hs.map fun h => (h.1, h.2.1)) ∧ InStep e' d'

theorem session122 (L : Hpack) (ok : HpackOk L) : ∀ (ms : List (List Hdr)) (p : Proc L),
    ok.InStep p.compressor p.decompressor → p.sensitive = [] → session p ms = .ok ms
  | [], _, _, _ => rfl
  | m :: ms, p, h, hs => by
    obtain ⟨e', blob, d', h1, h2, h3⟩ := ok.ok _ _ (m.map fun h => (h.1, h.2, p.sensitive.contains h.1)) h (by
      intro x hx
      obtain ⟨y, -, rfl⟩ := List.mem_map.mp hx
      simp [hs])
    have ih := session122 L ok ms { p with compressor := e', decompressor := d' } h3 hs
    simp only [session, compress, decompress, bind, Except.bind, h1, h2, pure, Except.pure, ih]
    simp [List.map_map, Function.comp_def]

/-- C122: with every `hpack` that keeps its promise, every session arrives: each message with the same headers in the same
order. -/
theorem C122 (L : Hpack) (ok : HpackOk L) (ms : List (List Hdr)) : session (Proc.init L) ms = .ok ms :=
  session122 L ok ms _ ok.new_ok rfl

/-! A package that keeps the promise: it counts the messages and writes lengths in front of strings. -/

/-- A string behind its length. -/
def counted122 (s : Str) : Str := s.length :: s

/-- The headers of a message, one behind the other. -/
def write122 (hs : List (Str × Str × Bool)) : Str := hs.flatMap fun h => counted122 h.1 ++ counted122 h.2.1

/-- Read what `write122` wrote. -/
def read122 : Nat → Str → Option (List Hdr)
  | _, [] => some []
  | 0, _ => none
  | f + 1, n :: s =>
    match s.drop n with
    | [] => none
    | m :: t => (read122 f (t.drop m)).map ((s.take n, t.take m) :: ·)

/-- The package; a decoder that misses a message does not understand the next one. -/
def counting122 : Hpack where
  E := Nat
  D := Nat
  newE := 0
  newD := 0
  encode n hs := .ok (n + 1, n :: write122 hs)
  decode n s :=
    match s with
    | [] => .error .index
    | k :: t =>
      if k = n then
        match read122 t.length t with
        | some hs => .ok (n + 1, hs)
        | none => .error .value
      else .error .value

theorem read122_ok : ∀ (hs : List (Str × Str × Bool)) (f : Nat), hs.length ≤ f →
    read122 f (write122 hs) = some (hs.map fun h => (h.1, h.2.1))
  | [], f, _ => by cases f <;> rfl
  | (k, v, b) :: hs, 0, h => by simp at h
  | (k, v, b) :: hs, f + 1, h => by
    have ih := read122_ok hs f (by simpa using h)
    have e : write122 ((k, v, b) :: hs) = k.length :: (k ++ (v.length :: (v ++ write122 hs))) := by
      simp [write122, counted122]
    rw [e]
    simp [read122, ih]

theorem write122_length (hs : List (Str × Str × Bool)) : hs.length ≤ (write122 hs).length := by
  induction hs with
  | nil => simp
  | cons h hs ih =>
    simp only [write122, counted122, List.flatMap_cons, List.length_append, List.length_cons] at ih ⊢
    omega

/-- It keeps the promise. -/
def counting122_ok : HpackOk counting122 where
  InStep e d := e = d
  new_ok := rfl
  ok := by
    rintro (e : Nat) (d : Nat) hs (rfl : e = d) -
    refine ⟨e + 1, e :: write122 hs, e + 1, rfl, ?_, rfl⟩
    simp only [counting122, if_true, read122_ok hs _ (write122_length hs)]

example : session (Proc.init counting122) [[(b!":path", b!"/"), (b!"a", b!"b")], [(b!"a", b!"b")]] =
    .ok [[(b!":path", b!"/"), (b!"a", b!"b")], [(b!"a", b!"b")]] := C122 _ counting122_ok _

end Verif.Props
