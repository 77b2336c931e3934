import Verif.Text.Misc
import Verif.Text.Spec
import Verif.PyLemmas
import Mathlib.Data.List.Basic
/-
spdy3 header blocks and varints can be read back.
-/
namespace Verif.Text
open Verif Spec

theorem encodeAscii_ok {s t : Str} (h : encodeAscii s = .ok t) : t = s ∧ ∀ c ∈ s, c < 128 := by
  unfold encodeAscii at h
  split at h
  · rename_i hs
    cases h
    exact ⟨rfl, fun c hc => by simpa using List.all_eq_true.1 hs c hc⟩
  · exact absurd h (by simp)

theorem word32_packL {n : Nat} {b : List Nat} (h : packL n = .ok b) (rest : List Nat) :
    word32 (b ++ rest) = some (n, rest) := by
  unfold packL at h
  split at h
  · cases h
    simp only [word32, List.cons_append, List.nil_append, Option.some.injEq, Prod.mk.injEq, and_true]
    omega
  · exact absurd h (by simp)

theorem field_read {s b rest : List Nat} (h : packL s.length = .ok b) : field (b ++ (s ++ rest)) = some (s, rest) := by
  unfold field
  rw [word32_packL h]
  simp

theorem header_ok {k v s : Str} (h : spdy3Header k v = .ok s) :
    ∃ a b, packL k.length = .ok a ∧ packL v.length = .ok b ∧ s = a ++ (k ++ (b ++ v)) ∧
      (∀ c ∈ k, c < 128) ∧ ∀ c ∈ v, c < 128 := by
  unfold spdy3Header at h
  simp only [bind, Except.bind, pure, Except.pure] at h
  split at h
  · exact absurd h (by simp)
  rename_i a ha
  split at h
  · exact absurd h (by simp)
  rename_i k' hk
  split at h
  · exact absurd h (by simp)
  rename_i b hb
  split at h
  · exact absurd h (by simp)
  rename_i v' hv
  cases h
  obtain ⟨rfl, h1⟩ := encodeAscii_ok hk
  obtain ⟨rfl, h2⟩ := encodeAscii_ok hv
  exact ⟨a, b, ha, hb, by simp, h1, h2⟩

theorem format_cons {k v : Str} {l : List (Str × Str)} {s : Str} (h : spdy3Format ((k, v) :: l) = .ok s) :
    ∃ a b, spdy3Header k v = .ok a ∧ spdy3Format l = .ok b ∧ s = a ++ b := by
  rw [spdy3Format] at h
  simp only [bind, Except.bind, pure, Except.pure] at h
  split at h
  · exact absurd h (by simp)
  rename_i a ha
  split at h
  · exact absurd h (by simp)
  rename_i b hb
  cases h
  exact ⟨a, b, ha, hb, rfl⟩

theorem readBlock_format (l : List (Str × Str)) : ∀ {s : Str}, spdy3Format l = .ok s → ∀ rest,
    readBlock l.length (s ++ rest) = some (l, rest) := by
  induction l with
  | nil => intro s h rest; cases h; rfl
  | cons kv l ih =>
    obtain ⟨k, v⟩ := kv
    intro s h rest
    obtain ⟨a, b, ha, hb, rfl⟩ := format_cons h
    obtain ⟨x, y, hx, hy, rfl, _⟩ := header_ok ha
    simp only [List.length_cons, readBlock, List.append_assoc]
    rw [field_read hx, Option.bind_some, field_read hy, Option.bind_some, ih hb]
    rfl

theorem format_ok_iff (l : List (Str × Str)) : (∃ s, spdy3Format l = .ok s) ↔
    ∀ k v, (k, v) ∈ l → (∀ c ∈ k, c < 128) ∧ (∀ c ∈ v, c < 128) ∧ k.length < 2 ^ 32 ∧ v.length < 2 ^ 32 := by
  have hp : ∀ n b, packL n = .ok b → n < 2 ^ 32 := by
    intro n b h
    unfold packL at h
    split at h
    · assumption
    · exact absurd h (by simp)
  constructor
  · rintro ⟨s, hs⟩
    induction l generalizing s with
    | nil => simp
    | cons kv l ih =>
      obtain ⟨k, v⟩ := kv
      obtain ⟨a, b, ha, hb, rfl⟩ := format_cons hs
      obtain ⟨x, y, hx, hy, _, h1, h2⟩ := header_ok ha
      intro k' v' hm
      rcases List.mem_cons.1 hm with hm | hm
      · cases hm; exact ⟨h1, h2, hp _ _ hx, hp _ _ hy⟩
      · exact ih b hb k' v' hm
  · intro h
    induction l with
    | nil => exact ⟨[], rfl⟩
    | cons kv l ih =>
      obtain ⟨k, v⟩ := kv
      obtain ⟨b, hb⟩ := ih (fun k' v' hm => h k' v' (by simp [hm]))
      obtain ⟨h1, h2, h3, h4⟩ := h k v (by simp)
      have e : ∀ s : Str, (∀ c ∈ s, c < 128) → encodeAscii s = .ok s := by
        intro s hs
        unfold encodeAscii
        rw [if_pos]
        rw [List.all_eq_true]
        intro c hc
        simpa using hs c hc
      have p : ∀ n, n < 2 ^ 32 → ∃ b, packL n = .ok b := fun n hn => ⟨_, if_pos hn⟩
      obtain ⟨x, hx⟩ := p _ h3
      obtain ⟨y, hy⟩ := p _ h4
      exact ⟨_, by rw [spdy3Format, spdy3Header, hx, e k h1, hy, e v h2, hb]; rfl⟩

theorem and_127 (v : Nat) : v &&& 127 = v % 128 := Nat.and_two_pow_sub_one_eq_mod v 7

theorem or_128 {v : Nat} (h : v < 128) : v ||| 128 = v + 128 := by
  have := Nat.two_pow_add_eq_or_of_lt (i := 7) h 1
  rw [Nat.or_comm] at this
  simp only [Nat.reducePow, Nat.mul_one] at this
  omega

theorem uvarintLoop_read (fuel : Nat) : ∀ v, v < fuel → ∀ rest,
    readLeb (uvarintLoop fuel v ++ rest) = some (v, rest) := by
  induction fuel with
  | zero => intro v h; omega
  | succ fuel ih =>
    intro v hv rest
    rw [uvarintLoop]
    rw [Nat.shiftRight_eq_div_pow, and_127]
    by_cases hs : v / 2 ^ 7 ≠ 0
    · rw [if_pos hs, if_pos hs, or_128 (Nat.mod_lt _ (by decide)), List.cons_append, readLeb, if_neg (by omega),
        ih (v / 2 ^ 7) (by omega)]
      simp only [Option.map_some, Option.some.injEq, Prod.mk.injEq, and_true]
      omega
    · rw [if_neg hs, if_neg hs, Nat.or_zero, List.cons_append, readLeb, if_pos (Nat.mod_lt _ (by decide))]
      simp only [List.nil_append, Option.some.injEq, Prod.mk.injEq, and_true]
      omega

theorem uvarintLoop_bytes (fuel : Nat) : ∀ v, ∀ b ∈ uvarintLoop fuel v, b < 256 := by
  induction fuel with
  | zero => intro v b hb; simp [uvarintLoop] at hb
  | succ fuel ih =>
    intro v b hb
    rw [uvarintLoop] at hb
    rw [and_127] at hb
    have hm : v % 128 < 128 := Nat.mod_lt _ (by decide)
    by_cases hs : v >>> 7 ≠ 0
    · rw [if_pos hs, if_pos hs, or_128 hm] at hb
      rcases List.mem_cons.1 hb with rfl | hb
      · omega
      · exact ih _ b hb
    · rw [if_neg hs, if_neg hs, Nat.or_zero] at hb
      rcases List.mem_cons.1 hb with rfl | hb
      · omega
      · simp at hb

end Verif.Text
