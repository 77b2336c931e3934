import Verif.Huff.TreeOpt
import Verif.Huff.DictOrder
import Verif.Huff.Tables
/-
The constructor on exact weights, and on the shipped tables.
-/
namespace Verif.Huff
open Verif Verif.Huff.Spec

/-- The symbols are 0, ..., n-1 and there are at least two. -/
theorem exact_total (table : FreqTable) (hlen : 2 ≤ table.length) :
    ∃ t, buildCodeTree whole table 1 = .ok t ∧ t.syms.Perm (table.map (·.1)) ∧ t.DepthOk ∧
      ∃ w d l r, t = Tree.node w d l r := by
  have hl : ∃ ls, makeLeaves whole 1 table = .ok ls := by
    clear hlen
    induction table with
    | nil => exact ⟨[], rfl⟩
    | cons e table ih =>
      obtain ⟨s, q⟩ := e
      obtain ⟨ls, h⟩ := ih
      refine ⟨(if q = 0 then 1 else 512 * q, s) :: ls, ?_⟩
      simp only [makeLeaves, bind, Except.bind, h]
      rfl
  obtain ⟨ls, hl⟩ := hl
  obtain ⟨t, h1, h2, h3, h4, -⟩ := buildCodeTree_ok whole table 1 hlen hl
  exact ⟨t, h1, h2, h3, h4⟩

theorem huffman_exact (ord : Dict Nat (List Nat) → List (Nat × List Nat)) {table : FreqTable} {t : Tree Nat}
    (ht : buildCodeTree whole table 1 = .ok t) :
    huffman exact ord table = if t.depth ≤ 32 then buildCodeTable ord t else .error .overflow := by
  have h := retry_exact table 1025 0 rfl (by omega)
  rw [if_neg (by omega), ht] at h
  simp only [pow_zero] at h
  simp only [huffman, bind, Except.bind, h]
  by_cases hd : t.depth ≤ 32
  · rw [if_pos hd, if_pos hd]
    exact buildCodeTable_mapW _ _ _
  · rw [if_neg hd, if_neg hd]

theorem ascending_mapW {W V : Type} (f : W → V) {ord : Dict Nat (List Nat) → List (Nat × List Nat)} {t : Tree W} :
    Ascending ord (t.mapW f) ↔ Ascending ord t := by
  have := discover_mapW f t.size [(t, 0)] []
  simp only [List.map_cons, List.map_nil] at this
  simp only [Ascending, size_mapW, this]

theorem atDepth_mapW {W V : Type} (f : W → V) (s : Nat) (t : Tree W) : ∀ n, AtDepth s t n → AtDepth s (t.mapW f) n := by
  intro n h
  induction h with
  | leaf w => exact .leaf _
  | left w d n l r _ ih => exact .left _ _ _ _ _ ih
  | right w d n l r _ ih => exact .right _ _ _ _ _ ih

theorem atDepth_le {W : Type} {s : Nat} {t : Tree W} (h : t.DepthOk) {n : Nat} (ha : AtDepth s t n) : n ≤ t.depth := by
  have := Tree.leaves_bound t 0 (n, s) ((Tree.mem_leaves t 0 n s).2 ⟨n, by omega, ha⟩)
  rw [Tree.depth_eq h]
  omega

/-- What the kernel checks of a table: the symbols, the height, and that CPython delivers the code
lengths in ascending order. -/
def tableOk (table : FreqTable) : Bool :=
  table.map (·.1) == List.range 257 &&
    match buildCodeTree whole table 1 with
    | .ok t =>
      decide (t.depth ≤ 32) &&
        match discover t.size [(t, 0)] [] with
        | .ok d => cpyOrder d == d && decide (d.Pairwise fun a b => a.1 < b.1)
        | .error _ => false
    | .error _ => false

theorem tableOk_spec {table : FreqTable} (h : tableOk table = true) :
    table.map (·.1) = List.range 257 ∧ ∃ t, buildCodeTree whole table 1 = .ok t ∧ t.depth ≤ 32 ∧ Ascending cpyOrder t := by
  simp only [tableOk, Bool.and_eq_true, beq_iff_eq] at h
  obtain ⟨h1, h2⟩ := h
  refine ⟨h1, ?_⟩
  cases hb : buildCodeTree whole table 1 with
  | error e => rw [hb] at h2; simp at h2
  | ok t =>
    rw [hb] at h2
    simp only [Bool.and_eq_true, decide_eq_true_eq] at h2
    refine ⟨t, rfl, h2.1, ?_⟩
    intro d hd
    rw [hd] at h2
    simp only [Bool.and_eq_true, beq_iff_eq, decide_eq_true_eq] at h2
    rw [h2.2.1]
    exact ⟨List.Perm.refl _, h2.2.2⟩

theorem request_ok : tableOk requestTable = true := by decide +kernel
theorem response_ok : tableOk responseTable = true := by decide +kernel
theorem oldRequest_ok : tableOk oldRequestTable = true := by decide +kernel
theorem oldResponse_ok : tableOk oldResponseTable = true := by decide +kernel

end Verif.Huff
