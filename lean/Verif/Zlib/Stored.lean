import Verif.Zlib.Spec
/-
A zlib that never compresses: every byte becomes a stored block (RFC 1951, 3.2.4), every flush an empty one.  It shows
that the contract can be met, and serves in the examples.
-/
namespace Verif.Zlib
open Verif

/-- The stored blocks of a text and the empty block of the flush. -/
def blocks (s : Str) : Str := s.flatMap (fun c => [0, 1, 0, 254, 255, c]) ++ [0, 0, 0, 255, 255]

/-- Reading stored blocks. -/
def unblocks : Nat → Str → Option Str
  | _, [] => some []
  | 0, _ :: _ => none
  | n + 1, b :: l0 :: l1 :: n0 :: n1 :: more =>
    if b = 0 ∧ l0 + n0 = 255 ∧ l1 + n1 = 255 ∧ l0 + 256 * l1 ≤ more.length then
      (unblocks n (more.drop (l0 + 256 * l1))).map (more.take (l0 + 256 * l1) ++ ·)
    else none
  | _ + 1, _ :: _ => none

/-- The library; both states say whether the two bytes of the zlib header have passed. -/
def stored : Lib where
  Z := Bool
  U := Bool
  new w := if 9 ≤ w ∧ w ≤ 15 then .ok false else .error .value
  zip z s := (true, if z then blocks s else 0x78 :: 0x9c :: blocks s)
  start := false
  unzip u s :=
    if u then (unblocks s.length s).map fun t => (true, t)
    else match s with
      | 0x78 :: 0x9c :: s => (unblocks s.length s).map fun t => (true, t)
      | _ => none

theorem unblocks_blocks (s : Str) : ∀ n, 6 * s.length + 5 ≤ n → unblocks n (blocks s) = some s := by
  induction s with
  | nil =>
    intro n hn
    obtain ⟨m, rfl⟩ : ∃ m, n = m + 1 := ⟨n - 1, by simp at hn; omega⟩
    cases m <;> simp [blocks, unblocks]
  | cons c s ih =>
    intro n hn
    obtain ⟨m, rfl⟩ : ∃ m, n = m + 1 := ⟨n - 1, by simp at hn; omega⟩
    have := ih m (by simp at hn; omega)
    simp only [blocks] at this
    simp [blocks, unblocks, this]

theorem blocks_length (s : Str) : (blocks s).length = 6 * s.length + 5 := by
  induction s with
  | nil => rfl
  | cons c s ih => simp only [blocks, List.flatMap_cons, List.append_assoc, List.length_append, List.length_cons, List.length_nil] at ih ⊢; omega

theorem unblocks_bad {bad : Str} (h : BadBlock bad) : unblocks bad.length bad = none := by
  obtain ⟨b, rest, rfl, h⟩ := h
  rcases h with h | ⟨_, l0, l1, n0, n1, more, rfl, h⟩
  · have hb : b ≠ 0 := by rintro rfl; simp at h
    rcases rest with _ | ⟨l0, _ | ⟨l1, _ | ⟨n0, _ | ⟨n1, more⟩⟩⟩⟩ <;> simp [unblocks, hb]
  · simp only [List.length_cons, unblocks]
    rw [if_neg]
    rintro ⟨_, h1, h2, _⟩
    exact h ⟨h1, h2⟩

/-- It meets the contract. -/
def storedOk : Ok stored where
  Paired z u := z = u
  new_ok w h1 h2 := ⟨false, by simp [stored, h1, h2], rfl⟩
  unzip_zip := by
    rintro z u s rfl
    have h := unblocks_blocks s (blocks s).length (Nat.le_of_eq (blocks_length s).symm)
    refine ⟨true, ?_, rfl⟩
    cases z <;> simp [stored, h]
  bad_block := by
    rintro z u u' s t bad rfl h hb
    have : u' = true := by
      have h' := unblocks_blocks s (blocks s).length (Nat.le_of_eq (blocks_length s).symm)
      cases z <;> simp [stored, h'] at h <;> exact (Prod.mk.inj h).1.symm
    subst this
    simp [stored, unblocks_bad hb]

end Verif.Zlib
