import Verif.Lib.Run
/-
Lemmas about the TSV output.
-/
namespace Verif.Lib
open Verif Verif.Lib.Spec

theorem zipAll_rows {n : Nat} {ls : List (List Nat)} (h0 : ls ≠ []) (h : ∀ l ∈ ls, l.length = n) :
    (zipAll ls).map (·.map some) = (List.range n).map fun j => ls.map fun l => l[j]? := by
  obtain ⟨h1, h2⟩ := zipAll_get n ls h0 h
  apply List.ext_getElem?
  intro j
  rw [List.getElem?_map, List.getElem?_map]
  by_cases hj : j < n
  · rw [h2 j hj, List.getElem?_range hj]
    simp only [Option.map_some, List.map_map, Option.some.injEq]
    apply List.map_congr_left
    intro l hl
    have : j < l.length := by rw [h l hl]; exact hj
    simp [this]
  · rw [List.getElem?_eq_none (by omega), List.getElem?_eq_none (by simp; omega)]; rfl

/-- The rows one stream should produce, without their numbers. -/
def rowData (n : Stream → Nat) (s : Stream) : List (Str × List (Option Nat)) :=
  (List.range (n s)).map fun j => (s.name, s.procs.map fun p => (sizesOf s.results.sizes p)[j]?)

theorem printTsv_spec {n : Stream → Nat} {s : Stream} (h0 : s.procs ≠ [])
    (h : ∀ p ∈ s.procs, (sizesOf s.results.sizes p).length = n s) (count : Nat) :
    (printTsv s count).2 = count + n s ∧
    (printTsv s count).1.map (·.num) = List.range' (count + 1) (n s) ∧
    (printTsv s count).1.map (fun r => (r.name, r.sizes.map some)) = rowData n s := by
  unfold printTsv
  rw [numberRows_spec]
  have h0' : s.procs.map (sizesOf s.results.sizes) ≠ [] := by simp [h0]
  have h' : ∀ l ∈ s.procs.map (sizesOf s.results.sizes), l.length = n s := by
    intro l hl
    obtain ⟨p, hp, rfl⟩ := List.mem_map.1 hl
    exact h p hp
  obtain ⟨h1, _⟩ := zipAll_get (n s) _ h0' h'
  have h2 := zipAll_rows h0' h'
  refine ⟨by simp [h1], ?_, ?_⟩
  · apply List.ext_getElem?
    intro j
    simp only [List.map_map, List.getElem?_map, Function.comp_def]
    by_cases hj : j < n s
    · rw [List.getElem?_zipIdx, List.getElem?_eq_getElem (by omega)]
      simp [List.getElem?_range', hj]; omega
    · rw [List.getElem?_eq_none (by simp; omega), List.getElem?_eq_none (by simp; omega)]; rfl
  · have h3 := congrArg (List.map fun x : List (Option Nat) => (s.name, x)) h2
    simp only [List.map_map, Function.comp_def] at h3 ⊢
    unfold rowData
    rw [← h3]
    apply List.ext_getElem?
    intro j
    simp only [List.getElem?_map, List.getElem?_zipIdx]
    cases (zipAll (s.procs.map (sizesOf s.results.sizes)))[j]? <;> rfl

theorem range'_append_nat (a m k : Nat) : List.range' a m ++ List.range' (a + m) k = List.range' a (m + k) := by
  have := List.range'_append (s := a) (m := m) (n := k) (step := 1)
  simpa using this

theorem tsvLoop_spec (n : Stream → Nat) (ss : List Stream)
    (h : ∀ s ∈ ss, s.procs ≠ [] ∧ ∀ p ∈ s.procs, (sizesOf s.results.sizes p).length = n s) :
    ∀ (req res : List TsvRow × Nat),
    ∃ R S, (tsvLoop ss (req, res)).1.1 = req.1 ++ R ∧ (tsvLoop ss (req, res)).2.1 = res.1 ++ S ∧
      R.map (·.num) = List.range' (req.2 + 1) (((ss.filter (·.isReq)).map n).sum) ∧
      S.map (·.num) = List.range' (res.2 + 1) (((ss.filter (!·.isReq)).map n).sum) ∧
      R.map (fun r => (r.name, r.sizes.map some)) = (ss.filter (·.isReq)).flatMap (rowData n) ∧
      S.map (fun r => (r.name, r.sizes.map some)) = (ss.filter (!·.isReq)).flatMap (rowData n) := by
  induction ss with
  | nil => intro req res; exact ⟨[], [], by simp [tsvLoop], by simp [tsvLoop], rfl, rfl, rfl, rfl⟩
  | cons s ss ih =>
    intro req res
    have ih' := ih (fun x hx => h x (by simp [hx]))
    obtain ⟨h0, h1⟩ := h s (by simp)
    rw [tsvLoop]
    by_cases hr : s.isReq = true
    · rw [if_pos hr]
      obtain ⟨p1, p2, p3⟩ := printTsv_spec h0 h1 req.2
      obtain ⟨R, S, i1, i2, i3, i4, i5, i6⟩ := ih' (req.1 ++ (printTsv s req.2).1, (printTsv s req.2).2) res
      refine ⟨(printTsv s req.2).1 ++ R, S, ?_, i2, ?_, ?_, ?_, ?_⟩
      · rw [i1]; simp
      · rw [List.map_append, p2, i3]
        simp only [List.filter_cons, hr, if_true, List.map_cons, List.sum_cons, p1]
        rw [← range'_append_nat]; congr 2; omega
      · simpa [List.filter_cons, hr] using i4
      · rw [List.map_append, p3, i5]; simp [List.filter_cons, hr]
      · simpa [List.filter_cons, hr] using i6
    · rw [if_neg hr]
      obtain ⟨p1, p2, p3⟩ := printTsv_spec h0 h1 res.2
      obtain ⟨R, S, i1, i2, i3, i4, i5, i6⟩ := ih' req (res.1 ++ (printTsv s res.2).1, (printTsv s res.2).2)
      refine ⟨R, (printTsv s res.2).1 ++ S, i1, ?_, ?_, ?_, ?_, ?_⟩
      · rw [i2]; simp
      · simpa [List.filter_cons, hr] using i3
      · rw [List.map_append, p2, i4]
        simp only [List.filter_cons, hr, List.map_cons, List.sum_cons, p1, Bool.not_false,
          if_true]
        rw [← range'_append_nat]; congr 2; omega
      · simpa [List.filter_cons, hr] using i5
      · rw [List.map_append, p3, i6]; simp [List.filter_cons, hr]

end Verif.Lib
