import Verif.Delta1.Any
import Verif.Props.Delta1
import Verif.Props.Delta2Cut
/-
Property theorems about the deserialisers of delta and delta2 on any bytes (C132).
-/
namespace Verif.Props
open Verif Verif.Bits Verif.Huff

theorem coder_full {h : Huffman} (hc : Delta2.IsCoder h) : ∃ codes, Delta2.FullOk (some h) codes := by
  obtain ⟨W, ops, ord, table, divisor, tree, hs, ht, hord, hb⟩ := hc
  obtain ⟨hsy, _, hn⟩ := buildCodeTree_spec ops ht
  rcases buildCodeTable_total ord tree 257 hn (hsy.trans hs) hord with ⟨h', codes, e, hc, ho⟩ | e
  · rw [hb] at e
    cases e
    exact ⟨codes, ⟨⟨h, rfl, hc⟩, ho.len⟩, ho.full⟩
  · rw [hb] at e
    cases e

theorem coder1_full {h : Huffman} (hc : IsCoder1 h) : ∃ codes, Delta2.FullOk (some h) codes := by
  obtain ⟨table, hs, e⟩ := hc
  obtain ⟨t, h', codes, -, e', hk, ho⟩ := Delta1.huffman_spec table 257 (by omega) hs
  rw [e] at e'
  cases e'
  exact ⟨codes, ⟨⟨h, rfl, hk⟩, ho.len⟩, ho.full⟩

/-- C132, delta: whatever bytes arrive, the deserialiser ends with StandardError, with KeyError (an unknown opcode), or with
a group and operations that the serialiser could have been given.  There are at most 256 operations for each 514 bytes
behind the 9 bytes of the frame header. -/
theorem C132_delta (h : Huffman) (hc : IsCoder1 h) (bytes : Str) (hb : ∀ x ∈ bytes, x < 256) :
    Delta1.realOpsToOps h bytes = .error .standard ∨ Delta1.realOpsToOps h bytes = .error .key ∨
    ∃ gid ops, Delta1.realOpsToOps h bytes = .ok (gid, ops) ∧ gid < 256 ∧ 9 ≤ bytes.length ∧
      514 * ops.length ≤ 256 * (bytes.length - 9) ∧ ∀ op ∈ ops, OpsOk [(op.opcode, [op])] := by
  obtain ⟨codes, hk⟩ := coder1_full hc
  rcases Delta1.deserialize_any hk bytes hb with e | e | ⟨gid, ops, e, h1, h2, h3⟩
  · exact .inl e
  · exact .inr (.inl e)
  · refine .inr (.inr ⟨gid, ops, e, h1, by omega, by omega, ?_⟩)
    intro op ho g hg o hm
    rw [List.mem_singleton] at hg
    subst hg
    rw [List.mem_singleton] at hm
    subst hm
    have := h3 o ho
    exact ⟨rfl, by cases o <;> exact this⟩

/-- C132, delta2: whatever bytes arrive, the deserialiser ends with StandardError, or with a group and operations that the
serialiser could have been given.  There are at most 16 operations for each 9 bytes behind the 9 bytes of the frame
header. -/
theorem C132_delta2 (p : Delta2.Packing) (h : Huffman) (hh : p.huff = some h) (hc : Delta2.IsCoder h) (bytes : Str)
    (hb : ∀ x ∈ bytes, x < 256) :
    Delta2.realOpsToOps p bytes = .error .standard ∨
    ∃ gid ops, Delta2.realOpsToOps p bytes = .ok (gid, ops) ∧ gid < 256 ∧ 9 ≤ bytes.length ∧
      9 * ops.length ≤ 16 * (bytes.length - 9) ∧ ∀ op ∈ ops, Delta2.GroupsOk p.ints [(op.opcode, [op])] := by
  obtain ⟨codes, hk⟩ := coder_full hc
  rw [← hh] at hk
  rcases Delta2.deserialize_any hk bytes hb with e | ⟨gid, ops, e, h1, h2, h3⟩
  · exact .inl e
  · refine .inr ⟨gid, ops, e, h1, by omega, by omega, ?_⟩
    intro op ho g hg o hm
    rw [List.mem_singleton] at hg
    subst hg
    rw [List.mem_singleton] at hm
    subst hm
    exact ⟨rfl, h3 o ho⟩

/-- C132, with less than the 9 bytes of a frame header both raise. -/
theorem C132_short (h1 : Huffman) (hc1 : IsCoder1 h1) (p : Delta2.Packing) (h2 : Huffman) (hh : p.huff = some h2)
    (hc2 : Delta2.IsCoder h2) (bytes : Str) (hb : ∀ x ∈ bytes, x < 256) (hl : bytes.length < 9) :
    (Delta1.realOpsToOps h1 bytes).isOk = false ∧ Delta2.realOpsToOps p bytes = .error .standard := by
  constructor
  · rcases C132_delta h1 hc1 bytes hb with e | e | ⟨gid, ops, e, _, h9, _⟩
    · rw [e]; rfl
    · rw [e]; rfl
    · omega
  · rcases C132_delta2 p h2 hh hc2 bytes hb with e | ⟨gid, ops, e, _, h9, _⟩
    · exact e
    · omega

/-- A result without the operations themselves: the number of them. -/
def outcome1 (bytes : Str) : Py Nat := (Delta1.huffman oldRequestTable).bind fun h =>
  (Delta1.realOpsToOps h bytes).map fun r => r.2.length
def outcome2 (bytes : Str) : Py Nat := flatCoder.bind fun h =>
  (Delta2.realOpsToOps ⟨.varint, some h⟩ bytes).map fun r => r.2.length

/-- All outcomes occur, delta: an unknown opcode, bits that are missing, a string that does not end, two toggles. -/
example : outcome1 [0, 4, 1, 0, 0, 0, 1, 8, 0, 9, 0, 0, 0] = .error .key := by decide +kernel
example : outcome1 [0, 4, 1, 0, 0, 0, 1, 8, 0, 1, 0, 0] = .error .standard := by decide +kernel
example : outcome1 [0, 9, 1, 0, 0, 0, 1, 8, 0, 5, 0, 0, 0, 0, 0] = .error .standard := by decide +kernel
example : outcome1 [0, 6, 1, 0, 0, 0, 1, 8, 0, 1, 1, 0, 7, 0, 9] = .ok 2 := by decide +kernel
/-- The bound is reached. -/
example : outcome1 ([2, 2, 1, 0, 0, 0, 1, 8, 0, 1, 255] ++ List.replicate 512 0) = .ok 256 ∧
    514 * 256 = 256 * (([2, 2, 1, 0, 0, 0, 1, 8, 0, 1, 255] ++ List.replicate 512 0 : Str).length - 9) := by decide +kernel

/-- delta2: an unknown opcode ends the frame without an exception.  In a frame that is not the last one (flags 0) the next
frame header is then expected behind the opcode: here it is found, and the frame brings one operation. -/
example : outcome2 [0, 4, 8, 1, 0, 0, 0, 1, 0, 0x90, 0, 0, 0] = .ok 0 := by decide +kernel
example : outcome2 [0, 4, 8, 0, 0, 0, 0, 1, 0, 0x90, 0, 2, 8, 1, 0, 0, 0, 1, 0, 0, 0x10] = .ok 1 := by decide +kernel
/-- If bits are missing in such a frame, the next header is missing too. -/
example : outcome2 [0, 4, 8, 0, 0, 0, 0, 1, 0, 0x60] = .error .standard := by decide +kernel
/-- The bound is reached. -/
example : outcome2 [0, 9, 8, 1, 0, 0, 0, 1, 0, 15, 0, 0, 0, 0, 0, 0, 0, 0] = .ok 16 ∧
    9 * 16 = 16 * (([0, 9, 8, 1, 0, 0, 0, 1, 0, 15, 0, 0, 0, 0, 0, 0, 0, 0] : Str).length - 9) := by decide +kernel

end Verif.Props
