import Verif.Huff.Spec
import Verif.PyLemmas
import Mathlib.Tactic.Ring
/-
The code tree: its leaves are the symbols of the table, and it is a full binary tree.
-/
namespace Verif.Huff
open Verif

section sort
variable {α : Type} (le : α → α → Bool)

theorem insertBy_perm (x : α) (l : List α) : (insertBy le x l).Perm (x :: l) := by
  induction l with
  | nil => exact List.Perm.refl _
  | cons y l ih =>
    unfold insertBy
    split
    · exact List.Perm.refl _
    · exact (List.Perm.cons y ih).trans (List.Perm.swap x y l)

theorem sortBy_perm (l : List α) : (sortBy le l).Perm l := by
  induction l with
  | nil => exact List.Perm.refl _
  | cons x l ih => exact (insertBy_perm le x _).trans (List.Perm.cons x ih)

theorem insertBy_sorted (htot : ∀ a b, le a b = true ∨ le b a = true)
    (htr : ∀ a b c, le a b = true → le b c = true → le a c = true) (x : α) (l : List α)
    (h : l.Pairwise fun a b => le a b = true) : (insertBy le x l).Pairwise fun a b => le a b = true := by
  induction l with
  | nil => simp [insertBy]
  | cons y l ih =>
    rw [List.pairwise_cons] at h
    unfold insertBy
    split
    · rename_i hxy
      rw [List.pairwise_cons, List.pairwise_cons]
      refine ⟨fun z hz => ?_, h⟩
      rcases List.mem_cons.1 hz with rfl | hz
      · exact hxy
      · exact htr _ _ _ hxy (h.1 z hz)
    · rename_i hxy
      rw [List.pairwise_cons]
      refine ⟨fun z hz => ?_, ih h.2⟩
      rcases List.mem_cons.1 ((insertBy_perm le x l).mem_iff.1 hz) with rfl | hz
      · exact (htot z y).resolve_left hxy
      · exact h.1 z hz

theorem sortBy_sorted (htot : ∀ a b, le a b = true ∨ le b a = true)
    (htr : ∀ a b c, le a b = true → le b c = true → le a c = true) (l : List α) :
    (sortBy le l).Pairwise fun a b => le a b = true := by
  induction l with
  | nil => simp [sortBy]
  | cons x l ih => exact insertBy_sorted le htot htr x _ ih

end sort

variable {W : Type}

/-- The leaves with their depth below a node at depth `n`. -/
def Tree.leaves : Tree W → Nat → List (Nat × Nat)
  | .leaf _ s, n => [(n, s)]
  | .node _ _ l r, n => l.leaves (n + 1) ++ r.leaves (n + 1)

/-- The symbols. -/
def Tree.syms : Tree W → List Nat
  | .leaf _ s => [s]
  | .node _ _ l r => l.syms ++ r.syms

/-- The height. -/
def Tree.height : Tree W → Nat
  | .leaf _ _ => 0
  | .node _ _ l r => max l.height r.height + 1

/-- The depth fields are right. -/
def Tree.DepthOk : Tree W → Prop
  | .leaf _ _ => True
  | .node _ d l r => d = max l.depth r.depth + 1 ∧ l.DepthOk ∧ r.DepthOk

theorem Tree.depth_eq {t : Tree W} (h : t.DepthOk) : t.depth = t.height := by
  induction t with
  | leaf => rfl
  | node w d l r ihl ihr =>
    obtain ⟨h1, h2, h3⟩ := h
    change d = _
    rw [h1, ihl h2, ihr h3]
    rfl

theorem Tree.leaves_syms (t : Tree W) (n : Nat) : (t.leaves n).map (·.2) = t.syms := by
  induction t generalizing n with
  | leaf => rfl
  | node w d l r ihl ihr => simp [Tree.leaves, Tree.syms, ihl, ihr]

theorem Tree.leaves_bound (t : Tree W) (n : Nat) : ∀ p ∈ t.leaves n, n ≤ p.1 ∧ p.1 ≤ n + t.height := by
  induction t generalizing n with
  | leaf => simp [Tree.leaves]
  | node w d l r ihl ihr =>
    intro p hp
    simp only [Tree.leaves, List.mem_append] at hp
    simp only [Tree.height]
    rcases hp with hp | hp
    · have := ihl _ p hp; omega
    · have := ihr _ p hp; omega

theorem Tree.leaves_ne_nil (t : Tree W) (n : Nat) : t.leaves n ≠ [] := by
  induction t generalizing n with
  | leaf => simp [Tree.leaves]
  | node w d l r ihl ihr => simp [Tree.leaves, ihl]

/-- A full binary tree uses up all bit strings. -/
theorem Tree.kraft (t : Tree W) (n H : Nat) (h : n + t.height ≤ H) :
    ((t.leaves n).map fun p => 2 ^ (H - p.1)).sum = 2 ^ (H - n) := by
  induction t generalizing n with
  | leaf => simp [Tree.leaves]
  | node w d l r ihl ihr =>
    simp only [Tree.height] at h
    simp only [Tree.leaves, List.map_append, List.sum_append]
    rw [ihl (n + 1) (by omega), ihr (n + 1) (by omega), show H - n = (H - (n + 1)) + 1 by omega, pow_succ]
    ring

theorem Tree.mem_leaves (t : Tree W) (n k sym : Nat) :
    (k, sym) ∈ t.leaves n ↔ ∃ m, k = n + m ∧ Spec.AtDepth sym t m := by
  induction t generalizing n with
  | leaf w s =>
    simp only [Tree.leaves, List.mem_singleton, Prod.mk.injEq]
    constructor
    · rintro ⟨rfl, rfl⟩
      exact ⟨0, rfl, .leaf w⟩
    · rintro ⟨m, h1, h2⟩
      cases h2
      exact ⟨h1, rfl⟩
  | node w d l r ihl ihr =>
    simp only [Tree.leaves, List.mem_append, ihl, ihr]
    constructor
    · rintro (⟨m, h1, h2⟩ | ⟨m, h1, h2⟩)
      · exact ⟨m + 1, by omega, .left _ _ _ _ _ h2⟩
      · exact ⟨m + 1, by omega, .right _ _ _ _ _ h2⟩
    · rintro ⟨m, h1, h2⟩
      cases h2 with
      | left _ _ m' _ _ h => exact .inl ⟨m', by omega, h⟩
      | right _ _ m' _ _ h => exact .inr ⟨m', by omega, h⟩

variable (ops : Weights W)

theorem pickNode_spec (ls is : List (Tree W)) (h : 0 < ls.length + is.length) :
    ∃ a ls' is', pickNode ops ls is = .ok (a, ls', is') ∧ (a :: (ls' ++ is')).Perm (ls ++ is) := by
  cases ls with
  | nil =>
    cases is with
    | nil => simp at h
    | cons i is => exact ⟨i, [], is, rfl, List.Perm.refl _⟩
  | cons l ls =>
    cases is with
    | nil => exact ⟨l, ls, [], rfl, List.Perm.refl _⟩
    | cons i is =>
      unfold pickNode
      by_cases hle : ops.le l.weight i.weight = true
      · exact ⟨l, ls, i :: is, by simp [hle], List.Perm.refl _⟩
      · refine ⟨i, l :: ls, is, by simp [hle], ?_⟩
        exact (List.perm_middle (l₁ := l :: ls)).symm

/-- The symbols of a list of trees. -/
def symsOf (ts : List (Tree W)) : List Nat := ts.flatMap Tree.syms

theorem symsOf_perm {a b : List (Tree W)} (h : a.Perm b) : (symsOf a).Perm (symsOf b) :=
  h.flatMap_right _

theorem buildLoop_spec (fuel : Nat) : ∀ (ls is : List (Tree W)), 0 < ls.length + is.length →
    ls.length + is.length ≤ fuel + 1 → (∀ t ∈ ls ++ is, t.DepthOk) → (1 < ls.length + is.length ∨ ls = []) →
    (∀ t ∈ is, ∃ w d l r, t = Tree.node w d l r) →
    ∃ t, buildLoop ops fuel ls is = .ok ([], [t]) ∧ t.syms.Perm (symsOf (ls ++ is)) ∧ t.DepthOk ∧
      ∃ w d l r, t = Tree.node w d l r := by
  induction fuel with
  | zero =>
    intro ls is h0 h1 hd h2 hn
    have : ls = [] := h2.resolve_left (by omega)
    subst this
    simp only [List.length_nil, Nat.zero_add] at h0 h1
    obtain ⟨t, rfl⟩ : ∃ t, is = [t] := List.length_eq_one_iff.1 (by omega)
    refine ⟨t, by simp [buildLoop], by simp [symsOf], hd t (by simp), hn t (by simp)⟩
  | succ fuel ih =>
    intro ls is h0 h1 hd h2 hn
    by_cases hc : ls.length + is.length > 1
    · obtain ⟨a, ls1, is1, e1, p1⟩ := pickNode_spec ops ls is (by omega)
      have l1 := p1.length_eq
      simp only [List.length_cons, List.length_append] at l1
      obtain ⟨b, ls2, is2, e2, p2⟩ := pickNode_spec ops ls1 is1 (by omega)
      have l2 := p2.length_eq
      simp only [List.length_cons, List.length_append] at l2
      have pp : (a :: b :: (ls2 ++ is2)).Perm (ls ++ is) := (List.Perm.cons a p2).trans p1
      have hmem : ∀ t ∈ a :: b :: (ls2 ++ is2), t.DepthOk := fun t ht => hd t (pp.mem_iff.1 ht)
      have sub1 : ∀ t, t ∈ is1 → t ∈ is := by
        intro t ht
        cases ls with
        | nil =>
          cases is with
          | nil => simp at hc
          | cons i is =>
            simp only [pickNode, Except.ok.injEq, Prod.mk.injEq] at e1
            obtain ⟨rfl, rfl, rfl⟩ := e1
            exact List.mem_cons_of_mem _ ht
        | cons l ls =>
          cases is with
          | nil =>
            simp only [pickNode, Except.ok.injEq, Prod.mk.injEq] at e1
            obtain ⟨rfl, rfl, rfl⟩ := e1
            exact ht
          | cons i is =>
            simp only [pickNode] at e1
            split at e1
            · simp only [Except.ok.injEq, Prod.mk.injEq] at e1
              obtain ⟨rfl, rfl, rfl⟩ := e1
              exact ht
            · simp only [Except.ok.injEq, Prod.mk.injEq] at e1
              obtain ⟨rfl, rfl, rfl⟩ := e1
              exact List.mem_cons_of_mem _ ht
      have sub2 : ∀ t, t ∈ is2 → t ∈ is1 := by
        intro t ht
        cases ls1 with
        | nil =>
          cases is1 with
          | nil => simp at l2
          | cons i is =>
            simp only [pickNode, Except.ok.injEq, Prod.mk.injEq] at e2
            obtain ⟨rfl, rfl, rfl⟩ := e2
            exact List.mem_cons_of_mem _ ht
        | cons l ls =>
          cases is1 with
          | nil =>
            simp only [pickNode, Except.ok.injEq, Prod.mk.injEq] at e2
            obtain ⟨rfl, rfl, rfl⟩ := e2
            exact ht
          | cons i is =>
            simp only [pickNode] at e2
            split at e2
            · simp only [Except.ok.injEq, Prod.mk.injEq] at e2
              obtain ⟨rfl, rfl, rfl⟩ := e2
              exact ht
            · simp only [Except.ok.injEq, Prod.mk.injEq] at e2
              obtain ⟨rfl, rfl, rfl⟩ := e2
              exact List.mem_cons_of_mem _ ht
      have key := ih ls2 (is2 ++ [Tree.node (ops.add a.weight b.weight) (max a.depth b.depth + 1) a b])
        (by simp only [List.length_append, List.length_singleton]; omega)
        (by simp only [List.length_append, List.length_singleton]; omega)
        (by
          intro t ht
          simp only [List.mem_append, List.mem_singleton] at ht
          rcases ht with ht | ht | rfl
          · exact hmem t (by simp [ht])
          · exact hmem t (by simp [ht])
          · exact ⟨rfl, hmem a (by simp), hmem b (by simp)⟩)
        (by
          simp only [List.length_append, List.length_singleton]
          by_cases h : ls2 = []
          · exact .inr h
          · have := List.length_pos_iff.2 h
            left; omega)
        (by
          intro t ht
          simp only [List.mem_append, List.mem_singleton] at ht
          rcases ht with ht | rfl
          · exact hn t (sub1 t (sub2 t ht))
          · exact ⟨_, _, _, _, rfl⟩)
      obtain ⟨t, e3, p3, d3, n3⟩ := key
      refine ⟨t, ?_, ?_, d3, n3⟩
      · rw [buildLoop, if_pos hc]
        simp only [e1, e2, bind, Except.bind]
        exact e3
      · refine p3.trans (List.Perm.trans ?_ (symsOf_perm pp))
        have : symsOf (ls2 ++ (is2 ++ [Tree.node (ops.add a.weight b.weight) (max a.depth b.depth + 1) a b])) =
            symsOf (ls2 ++ is2) ++ symsOf [a, b] := by
          simp [symsOf, Tree.syms]
        rw [this]
        have : symsOf (a :: b :: (ls2 ++ is2)) = symsOf [a, b] ++ symsOf (ls2 ++ is2) := by simp [symsOf]
        rw [this]
        exact List.perm_append_comm
    · have : ls = [] := h2.resolve_left (by omega)
      subst this
      simp only [List.length_nil, Nat.zero_add] at h0 hc
      obtain ⟨t, rfl⟩ : ∃ t, is = [t] := List.length_eq_one_iff.1 (by omega)
      refine ⟨t, by simp [buildLoop], by simp [symsOf], hd t (by simp), hn t (by simp)⟩

theorem makeLeaves_spec (div : Nat) (table : FreqTable) {ls : List (W × Nat)}
    (h : makeLeaves ops div table = .ok ls) :
    List.Forall₂ (fun (p : Nat × Nat) (q : W × Nat) => q.2 = p.1 ∧ ops.ofFreq p.2 div = .ok q.1) table ls := by
  induction table generalizing ls with
  | nil =>
    simp only [makeLeaves, Except.ok.injEq] at h
    subst h
    exact .nil
  | cons p t ih =>
    obtain ⟨sym, freq⟩ := p
    simp only [makeLeaves, bind, Except.bind, pure, Except.pure] at h
    split at h
    · simp at h
    · rename_i w hw
      split at h
      · simp at h
      · rename_i rest hr
        simp only [Except.ok.injEq] at h
        subst h
        exact .cons ⟨rfl, hw⟩ (ih hr)

theorem forall₂_syms {table : FreqTable} {ls : List (W × Nat)} {R : Nat × Nat → W × Nat → Prop}
    (hR : ∀ p q, R p q → q.2 = p.1) (h : List.Forall₂ R table ls) : ls.map (·.2) = table.map (·.1) := by
  induction h with
  | nil => rfl
  | cons h _ ih => simp [ih, hR _ _ h]

theorem symsOf_leaves (ls : List (W × Nat)) : symsOf (ls.map fun p => Tree.leaf p.1 p.2) = ls.map (·.2) := by
  induction ls with
  | nil => rfl
  | cons p ls ih =>
    simp only [symsOf, List.map_cons, List.flatMap_cons] at ih ⊢
    rw [ih]
    rfl

/-- BuildCodeTree succeeds whenever the weights can be computed. -/
theorem buildCodeTree_ok (table : FreqTable) (div : Nat) (hlen : 2 ≤ table.length)
    {ls : List (W × Nat)} (hl : makeLeaves ops div table = .ok ls) :
    ∃ t, buildCodeTree ops table div = .ok t ∧ t.syms.Perm (table.map (·.1)) ∧ t.DepthOk ∧
      (∃ w d l r, t = Tree.node w d l r) ∧
      buildLoop ops ls.length ((sortBy (leafLe ops) ls).map fun p => Tree.leaf p.1 p.2) [] = .ok ([], [t]) := by
  have hf := makeLeaves_spec ops div table hl
  have hlen' := hf.length_eq
  have hs : ls.map (·.2) = table.map (·.1) := forall₂_syms (fun p q h => h.1) hf
  have hp := sortBy_perm (leafLe ops) ls
  have hpl := hp.length_eq
  obtain ⟨t, e, p, d, n⟩ := buildLoop_spec ops ls.length
    ((sortBy (leafLe ops) ls).map fun p => Tree.leaf p.1 p.2) [] (by simp; omega) (by simp; omega)
    (by
      intro t ht
      simp only [List.append_nil, List.mem_map] at ht
      obtain ⟨q, _, rfl⟩ := ht
      trivial)
    (by left; simp; omega) (by simp)
  refine ⟨t, ?_, ?_, d, n, e⟩
  · have e' : buildLoop ops ((sortBy (leafLe ops) ls).map fun p => Tree.leaf p.1 p.2).length
        ((sortBy (leafLe ops) ls).map fun p => Tree.leaf p.1 p.2) [] = .ok ([], [t]) := by
      rw [List.length_map, hpl]; exact e
    unfold buildCodeTree
    rw [if_neg (by omega)]
    simp only [hl, bind, Except.bind, e', pure, Except.pure]
    simp
  · rw [List.append_nil, symsOf_leaves] at p
    rw [← hs]
    exact p.trans (hp.map _)

theorem buildCodeTree_inv {table : FreqTable} {div : Nat} {t : Tree W}
    (h : buildCodeTree ops table div = .ok t) : 2 ≤ table.length ∧ ∃ ls, makeLeaves ops div table = .ok ls := by
  unfold buildCodeTree at h
  split at h
  · simp at h
  · refine ⟨by omega, ?_⟩
    simp only [bind, Except.bind] at h
    split at h
    · simp at h
    · exact ⟨_, by assumption⟩

theorem buildCodeTree_spec {table : FreqTable} {div : Nat} {t : Tree W}
    (h : buildCodeTree ops table div = .ok t) :
    t.syms.Perm (table.map (·.1)) ∧ t.DepthOk ∧ ∃ w d l r, t = Tree.node w d l r := by
  obtain ⟨hlen, ls, hl⟩ := buildCodeTree_inv ops h
  obtain ⟨t', e, p, d, n, _⟩ := buildCodeTree_ok ops table div hlen hl
  rw [e] at h
  cases h
  exact ⟨p, d, n⟩

/-! ### DiscoverDepthAndStoreIt -/

/-- The (depth, symbol) pairs of a dictionary from depths to symbols. -/
def flat (d : List (Nat × List Nat)) : List (Nat × Nat) := d.flatMap fun g => g.2.map fun s => (g.1, s)

theorem flat_set (d : Dict Nat (List Nat)) (k s : Nat) :
    (flat (d.set k ((d.get? k).getD [] ++ [s]))).Perm ((k, s) :: flat d) := by
  induction d with
  | nil => simp [Dict.set, Dict.get?, flat]
  | cons g d ih =>
    obtain ⟨k', v⟩ := g
    by_cases hk : k' = k
    · subst hk
      simp only [Dict.set, Dict.get?, if_true, Option.getD_some, flat, List.flatMap_cons, List.map_append,
        List.map_cons, List.map_nil]
      rw [List.append_assoc]
      exact List.perm_middle
    · simp only [Dict.set, Dict.get?, if_neg hk, flat, List.flatMap_cons] at ih ⊢
      exact (List.Perm.append_left _ ih).trans List.perm_middle

/-- All leaves in a queue of trees. -/
def queueLeaves (q : List (Tree W × Nat)) : List (Nat × Nat) := q.flatMap fun p => p.1.leaves p.2

theorem discover_spec (fuel : Nat) : ∀ (q : List (Tree W × Nat)) (d : Dict Nat (List Nat)),
    (q.map fun p => p.1.size).sum ≤ fuel → d.WF →
    ∃ d', discover fuel q d = .ok d' ∧ (flat d').Perm (queueLeaves q ++ flat d) ∧ d'.WF := by
  induction fuel with
  | zero =>
    intro q d h hwf
    cases q with
    | nil => exact ⟨d, rfl, List.Perm.refl _, hwf⟩
    | cons p q =>
      exfalso
      obtain ⟨t, n⟩ := p
      cases t <;> simp [Tree.size] at h
  | succ fuel ih =>
    intro q d h hwf
    cases q with
    | nil => exact ⟨d, rfl, List.Perm.refl _, hwf⟩
    | cons p q =>
      obtain ⟨t, n⟩ := p
      cases t with
      | leaf w s =>
        simp only [List.map_cons, List.sum_cons, Tree.size] at h
        obtain ⟨d', e, p, wf'⟩ := ih q (d.set n ((d.get? n).getD [] ++ [s])) (by omega) (hwf.set _ _)
        refine ⟨d', e, p.trans ?_, wf'⟩
        simp only [queueLeaves, List.flatMap_cons, Tree.leaves, List.cons_append, List.nil_append]
        exact (List.Perm.append_left _ (flat_set d n s)).trans List.perm_middle
      | node w dd l r =>
        simp only [List.map_cons, List.sum_cons, Tree.size] at h
        obtain ⟨d', e, p, wf'⟩ := ih (q ++ [(l, n + 1), (r, n + 1)]) d
          (by simp only [List.map_append, List.sum_append, List.map_cons, List.map_nil, List.sum_cons, List.sum_nil]; omega) hwf
        refine ⟨d', e, p.trans ?_, wf'⟩
        simp only [queueLeaves, List.flatMap_append, List.flatMap_cons, List.flatMap_nil, List.append_nil, Tree.leaves]
        exact List.Perm.append_right _ List.perm_append_comm

theorem discover_tree (t : Tree W) :
    ∃ d, discover t.size [(t, 0)] [] = .ok d ∧ (flat d).Perm (t.leaves 0) ∧ d.WF := by
  obtain ⟨d, e, p, wf⟩ := discover_spec t.size [(t, 0)] [] (by simp) (by simp [Dict.WF, Dict.keys])
  exact ⟨d, e, by simpa [queueLeaves, flat] using p, wf⟩

end Verif.Huff
