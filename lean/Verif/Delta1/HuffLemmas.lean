import Verif.Delta1.Huffman
import Verif.Huff.Code
import Verif.Huff.TreeOpt
/-
The code of delta's Huffman class: the paths of its tree.
-/
namespace Verif.Delta1
open Verif Verif.Bits Verif.Bits.Spec Verif.Huff Verif.Huff.Spec

/-- Symbols and paths of the leaves, below the path `p`. -/
def paths : Huff.Tree Nat → List Bool → List (Nat × List Bool)
  | .leaf _ s, p => [(s, p)]
  | .node _ _ l r, p => paths r (p ++ [true]) ++ paths l (p ++ [false])

theorem size_pos (t : Huff.Tree Nat) : 0 < t.size := by cases t <;> simp [Huff.Tree.size]

theorem collect_spec (fuel : Nat) : ∀ (q : List (Huff.Tree Nat × List Bool)) (out : List (Nat × List Bool)),
    (q.map fun x => x.1.size).sum ≤ fuel → collect fuel q out = .ok (out ++ q.flatMap fun x => paths x.1 x.2) := by
  induction fuel with
  | zero =>
    intro q out h
    cases q with
    | nil => simp [collect]
    | cons x q =>
      have := size_pos x.1
      simp only [List.map_cons, List.sum_cons] at h
      omega
  | succ fuel ih =>
    intro q out h
    cases q with
    | nil => simp [collect]
    | cons x q =>
      obtain ⟨t, p⟩ := x
      cases t with
      | leaf w s =>
        simp only [List.map_cons, List.sum_cons, Huff.Tree.size] at h
        rw [collect, ih _ _ (by omega)]
        simp [paths]
      | node w d l r =>
        simp only [List.map_cons, List.sum_cons, Huff.Tree.size] at h
        rw [collect, ih _ _ (by simp only [List.map_cons, List.sum_cons]; omega)]
        simp [paths]

theorem paths_syms (t : Huff.Tree Nat) : ∀ p, ((paths t p).map (·.1)).Perm t.syms := by
  induction t with
  | leaf w s => intro p; exact .refl _
  | node w d l r hl hr =>
    intro p
    simp only [paths, List.map_append, Huff.Tree.syms]
    exact ((hr _).append (hl _)).trans List.perm_append_comm

/-- A path leads to its symbol, whose depth is its length. -/
theorem paths_leads (t : Huff.Tree Nat) : ∀ p s c, (s, c) ∈ paths t p → ∃ q, c = p ++ q ∧ Leads (dtree t) q s ∧
    AtDepth s t q.length := by
  induction t with
  | leaf w s =>
    intro p s' c h
    simp only [paths, List.mem_singleton, Prod.mk.injEq] at h
    obtain ⟨rfl, rfl⟩ := h
    exact ⟨[], by simp, rfl, AtDepth.leaf w⟩
  | node w d l r hl hr =>
    intro p s c h
    simp only [paths, List.mem_append] at h
    rcases h with h | h
    · obtain ⟨q, rfl, h1, h2⟩ := hr _ _ _ h
      exact ⟨true :: q, by simp, h1, AtDepth.right _ _ _ _ _ h2⟩
    · obtain ⟨q, rfl, h1, h2⟩ := hl _ _ _ h
      exact ⟨false :: q, by simp, h1, AtDepth.left _ _ _ _ _ h2⟩

/-- Every long bit string begins with a path. -/
theorem paths_complete (t : Huff.Tree Nat) : ∀ p x, t.height ≤ x.length → ∃ s c, (s, c) ∈ paths t p ∧ c <+: p ++ x := by
  induction t with
  | leaf w s => intro p x _; exact ⟨s, p, by simp [paths], by simp⟩
  | node w d l r hl hr =>
    intro p x h
    simp only [Huff.Tree.height] at h
    cases x with
    | nil => simp at h
    | cons b x =>
      simp only [List.length_cons] at h
      cases b with
      | true =>
        obtain ⟨s, c, h1, h2⟩ := hr (p ++ [true]) x (by omega)
        exact ⟨s, c, by simp [paths, h1], by simpa using h2⟩
      | false =>
        obtain ⟨s, c, h1, h2⟩ := hl (p ++ [false]) x (by omega)
        exact ⟨s, c, by simp [paths, h1], by simpa using h2⟩

/-- A path that leads somewhere is not a proper prefix of one that does. -/
theorem leads_prefix (t : DTree) : ∀ (a b : List Bool) (s u : Nat), Leads t a s → Leads t b u → a <+: b → s = u := by
  induction t with
  | empty => intro a b s u h; cases a <;> simp [Leads] at h
  | leaf x =>
    intro a b s u h1 h2 _
    cases a with
    | cons => simp [Leads] at h1
    | nil =>
      cases b with
      | cons => simp [Leads] at h2
      | nil => simp only [Leads] at h1 h2; omega
  | node l r hl hr =>
    intro a b s u h1 h2 hp
    cases a with
    | nil => simp [Leads] at h1
    | cons x a =>
      cases b with
      | nil => simp at hp
      | cons y b =>
        obtain ⟨rfl, hp'⟩ := List.cons_prefix_cons.1 hp
        simp only [Leads] at h1 h2
        cases x with
        | true => exact hr a b s u (by simpa using h1) (by simpa using h2) hp'
        | false => exact hl a b s u (by simpa using h1) (by simpa using h2) hp'

theorem codeLoop_spec (l : List (Nat × List Bool)) : ∀ i, l.map (·.1) = List.range' i l.length →
    (∀ x ∈ l, x.2 ≠ []) → codeLoop i l = .ok (l.map fun x => (pack x.2, x.2.length)) := by
  induction l with
  | nil => intro i _ _; rfl
  | cons x l ih =>
    intro i h hne
    obtain ⟨s, c⟩ := x
    simp only [List.map_cons, List.length_cons, List.range'_succ, List.cons.injEq] at h
    obtain ⟨rfl, h⟩ := h
    simp only [codeLoop, ne_eq, not_true_eq_false, if_false, brep_eq c (hne (s, c) (by simp)), bind, Except.bind,
      ih (s + 1) h (fun y hy => hne y (by simp [hy])), pure, Except.pure, List.map_cons]

/-- An ascending list with the elements of a range is the range. -/
theorem sorted_range {l : List Nat} {n : Nat} (h : l.Perm (List.range n)) (hs : l.Pairwise (· ≤ ·)) :
    l = List.range' 0 n := by
  rw [List.range_eq_range'] at h
  refine h.eq_of_pairwise (fun a b _ _ h1 h2 => Nat.le_antisymm h1 h2) hs ?_
  rw [← List.range_eq_range']
  exact List.pairwise_lt_range.imp Nat.le_of_lt

theorem codeTable_spec (t : Huff.Tree Nat) (n : Nat) (hnode : ∃ w d l r, t = Huff.Tree.node w d l r)
    (hs : t.syms.Perm (List.range n)) : ∃ codes, codeTable t = .ok (codes.map fun c => (pack c, c.length)) ∧
      CodesOf t n codes ∧ ∀ (i : Nat) (c : List Bool), codes[i]? = some c → Leads (dtree t) c i := by
  have e1 := collect_spec t.size [(t, [])] [] (by simp)
  simp only [List.nil_append, List.flatMap_cons, List.flatMap_nil, List.append_nil] at e1
  have hp := sortBy_perm (fun a b : Nat × List Bool => decide (a.1 ≤ b.1)) (paths t [])
  have hsort := sortBy_sorted (fun a b : Nat × List Bool => decide (a.1 ≤ b.1))
    (fun a b => by simp only [decide_eq_true_eq]; omega)
    (fun a b c => by simp only [decide_eq_true_eq]; omega) (paths t [])
  generalize hL : sortBy (fun a b : Nat × List Bool => decide (a.1 ≤ b.1)) (paths t []) = L at hp hsort
  have hLs : L.map (·.1) = List.range' 0 n := by
    refine sorted_range ((hp.map _).trans ((paths_syms t []).trans hs)) ?_
    rw [List.pairwise_map]
    exact hsort.imp (fun h => by simpa using h)
  have hlen : L.length = n := by
    have := congrArg List.length hLs
    simpa using this
  have hleads : ∀ s c, (s, c) ∈ L → Leads (dtree t) c s ∧ AtDepth s t c.length := by
    intro s c h
    obtain ⟨q, rfl, h1, h2⟩ := paths_leads t [] s c (hp.mem_iff.1 h)
    exact ⟨h1, h2⟩
  have hne : ∀ x ∈ L, x.2 ≠ [] := by
    intro x hx h0
    have h1 := (hleads x.1 x.2 hx).1
    rw [h0] at h1
    obtain ⟨w, d, l, r, rfl⟩ := hnode
    simp [dtree, Leads] at h1
  have hget : ∀ (i : Nat) (c : List Bool), (L.map (·.2))[i]? = some c → (i, c) ∈ L := by
    intro i c h
    simp only [List.getElem?_map, Option.map_eq_some_iff] at h
    obtain ⟨x, hx, rfl⟩ := h
    have h2 : (L.map (·.1))[i]? = some x.1 := by simp [hx]
    rw [hLs, List.getElem?_range' (by
      obtain ⟨hi, _⟩ := List.getElem?_eq_some_iff.1 hx
      omega)] at h2
    simp only [Nat.zero_add, Nat.one_mul, Option.some.injEq] at h2
    rw [h2]
    exact List.mem_of_getElem? hx
  refine ⟨L.map (·.2), ?_, ⟨by simp [hlen], ?_, ?_, ?_, ?_⟩, ?_⟩
  · simp only [codeTable, bind, Except.bind, e1, hL]
    rw [codeLoop_spec L 0 (by rw [hLs, hlen]) hne, List.map_map]
    rfl
  · intro i j ci cj hi hj hpre
    exact leads_prefix _ ci cj i j (hleads _ _ (hget i ci hi)).1 (hleads _ _ (hget j cj hj)).1 hpre
  · refine ⟨t.height, fun x hx => ?_⟩
    obtain ⟨s, c, h1, h2⟩ := paths_complete t [] x hx
    exact ⟨c, List.mem_map.2 ⟨(s, c), hp.mem_iff.2 h1, rfl⟩, by simpa using h2⟩
  · exact fun i c h => (hleads _ _ (hget i c h)).2
  · intro c hc
    obtain ⟨x, hx, rfl⟩ := List.mem_map.1 hc
    exact hne x hx
  · exact fun i c h => (hleads _ _ (hget i c h)).1

/-- The constructor on a table with the symbols 0 to n - 1. -/
theorem huffman_spec (table : FreqTable) (n : Nat) (h2 : 2 ≤ n) (hs : (table.map (·.1)).Perm (List.range n)) :
    ∃ t h codes, codeTree table = .ok t ∧ huffman table = .ok h ∧ Codes h codes ∧ CodesOf t n codes := by
  have hlen : table.length = n := by simpa using hs.length_eq
  have hl : ∃ ls, makeLeaves counts 1 table = .ok ls := by
    clear hs hlen
    induction table with
    | nil => exact ⟨[], rfl⟩
    | cons e table ih =>
      obtain ⟨s, q⟩ := e
      obtain ⟨ls, e⟩ := ih
      exact ⟨(q, s) :: ls, by simp only [makeLeaves, counts, bind, Except.bind] at e ⊢; rw [e]; rfl⟩
  obtain ⟨ls, hl⟩ := hl
  obtain ⟨t, e, hsy, -, hn, -⟩ := buildCodeTree_ok counts table 1 (by omega) hl
  obtain ⟨codes, e2, ho, hleads⟩ := codeTable_spec t n hn (hsy.trans hs)
  refine ⟨t, ⟨codes.map fun c => (pack c, c.length), dtree t⟩, codes, e, ?_, ⟨rfl, hleads, ho.nonempty⟩, ho⟩
  simp only [huffman, codeTree, bind, Except.bind, e, e2, pure, Except.pure]

theorem atDepth_map {W V : Type} (f : W → V) (s : Nat) (t : Huff.Tree W) : ∀ n, AtDepth s t n → AtDepth s (t.mapW f) n := by
  induction t with
  | leaf w s' => intro n h; cases h; exact AtDepth.leaf _
  | node w d l r hl hr =>
    intro n h
    cases h with
    | left _ _ n _ _ h => exact AtDepth.left _ _ _ _ _ (hl _ h)
    | right _ _ n _ _ h => exact AtDepth.right _ _ _ _ _ (hr _ h)

/-- The code words are as short as they can be. -/
theorem huffman_opt {table : FreqTable} {n : Nat} (hs : (table.map (·.1)).Perm (List.range n)) {t : Huff.Tree Nat}
    (ht : codeTree table = .ok t) {codes : List (List Bool)} (hc : CodesOf t n codes) (other : List (List Bool))
    (ho : other.length = n) (hf : PrefixFree other) :
    costBy (fun q => (q : ℚ)) table codes ≤ costBy (fun q => (q : ℚ)) table other := by
  have hcarry : Carries counts (exactBy fun q => (q : ℚ)) (fun q : Nat => (q : ℚ)) :=
    ⟨fun a b => by simp [counts, exactBy], fun a b => by simp [counts, exactBy]⟩
  have := buildCodeTree_carry hcarry 1 1 table (fun e _ => rfl)
  rw [codeTree] at ht
  rw [ht] at this
  exact tree_opt_by _ (fun q => by positivity) this hs (fun i c h => atDepth_map _ _ _ _ (hc.depth i c h)) hc.len other ho hf

end Verif.Delta1
