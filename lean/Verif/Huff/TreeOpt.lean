import Verif.Huff.Exact
/-
The tree built by the two queues is optimal.
-/
namespace Verif.Huff
open Verif Verif.Huff.Spec

/-- The leaves: symbol and weight. -/
def Tree.wsyms : Tree ℚ → List (Nat × ℚ)
  | .leaf w s => [(s, w)]
  | .node _ _ l r => l.wsyms ++ r.wsyms

/-- The leaves: symbol, weight, and depth counted from `n`. -/
def Tree.wleaves : Tree ℚ → Nat → List ((Nat × ℚ) × Nat)
  | .leaf w s, n => [((s, w), n)]
  | .node _ _ l r, n => l.wleaves (n + 1) ++ r.wleaves (n + 1)

/-- Weight times depth, added up over the leaves. -/
def Tree.wcost (t : Tree ℚ) (n : Nat) : ℚ := ((t.wleaves n).map fun p => p.1.2 * (p.2 : ℚ)).sum

/-- The weights of inner nodes are the sums. -/
def Tree.SumOk : Tree ℚ → Prop
  | .leaf _ _ => True
  | .node w _ l r => w = l.weight + r.weight ∧ l.SumOk ∧ r.SumOk

theorem wcost_leaf (w : ℚ) (s n : Nat) : (Tree.leaf w s).wcost n = w * n := by simp [Tree.wcost, Tree.wleaves]

theorem wcost_node (w : ℚ) (d n : Nat) (l r : Tree ℚ) :
    (Tree.node w d l r).wcost n = l.wcost (n + 1) + r.wcost (n + 1) := by simp [Tree.wcost, Tree.wleaves]

theorem wcost_succ (t : Tree ℚ) (h : t.SumOk) (n : Nat) : t.wcost (n + 1) = t.wcost n + t.weight := by
  induction t generalizing n with
  | leaf w s => simp only [wcost_leaf, Tree.weight]; push_cast; ring
  | node w d l r ihl ihr =>
    obtain ⟨h1, h2, h3⟩ := h
    rw [wcost_node, wcost_node, ihl h2, ihr h3]
    change _ = _ + w
    rw [h1]
    ring

theorem wleaves_wsyms (t : Tree ℚ) (n : Nat) : (t.wleaves n).map (·.1) = t.wsyms := by
  induction t generalizing n with
  | leaf => rfl
  | node w d l r ihl ihr => simp [Tree.wleaves, Tree.wsyms, ihl, ihr]

theorem wleaves_leaves (t : Tree ℚ) (n : Nat) : (t.wleaves n).map (fun p => (p.2, p.1.1)) = t.leaves n := by
  induction t generalizing n with
  | leaf => rfl
  | node w d l r ihl ihr => simp [Tree.wleaves, Tree.leaves, ihl, ihr]

/-- The order of weights. -/
abbrev Up (l : List (Tree ℚ)) : Prop := l.Pairwise fun a b => a.weight ≤ b.weight

theorem pickNode_min {ls is : List (Tree ℚ)} (h1 : Up ls) (h2 : Up is) {a : Tree ℚ} {ls' is' : List (Tree ℚ)}
    (h : pickNode exact ls is = .ok (a, ls', is')) :
    (a :: (ls' ++ is')).Perm (ls ++ is) ∧ (∀ t ∈ ls' ++ is', a.weight ≤ t.weight) ∧ ls'.Sublist ls ∧ is'.Sublist is := by
  cases ls with
  | nil =>
    cases is with
    | nil => simp [pickNode] at h
    | cons i is =>
      simp only [pickNode, Except.ok.injEq, Prod.mk.injEq] at h
      obtain ⟨rfl, rfl, rfl⟩ := h
      rw [Up, List.pairwise_cons] at h2
      exact ⟨List.Perm.refl _, by simpa using h2.1, List.Sublist.refl _, List.sublist_cons_self _ _⟩
  | cons l ls =>
    rw [Up, List.pairwise_cons] at h1
    cases is with
    | nil =>
      simp only [pickNode, Except.ok.injEq, Prod.mk.injEq] at h
      obtain ⟨rfl, rfl, rfl⟩ := h
      exact ⟨List.Perm.refl _, by simpa using h1.1, List.sublist_cons_self _ _, List.Sublist.refl _⟩
    | cons i is =>
      rw [Up, List.pairwise_cons] at h2
      simp only [pickNode] at h
      split at h
      · rename_i hle
        simp only [exact, decide_eq_true_eq] at hle
        simp only [Except.ok.injEq, Prod.mk.injEq] at h
        obtain ⟨rfl, rfl, rfl⟩ := h
        refine ⟨List.Perm.refl _, ?_, List.sublist_cons_self _ _, List.Sublist.refl _⟩
        intro t ht
        simp only [List.mem_append, List.mem_cons] at ht
        rcases ht with ht | rfl | ht
        · exact h1.1 t ht
        · exact hle
        · exact hle.trans (h2.1 t ht)
      · rename_i hle
        simp only [exact, decide_eq_true_eq, not_le] at hle
        simp only [Except.ok.injEq, Prod.mk.injEq] at h
        obtain ⟨rfl, rfl, rfl⟩ := h
        refine ⟨?_, ?_, List.Sublist.refl _, List.sublist_cons_self _ _⟩
        · exact (List.perm_middle (l₁ := l :: ls)).symm
        · intro t ht
          simp only [List.mem_append, List.mem_cons] at ht
          rcases ht with (rfl | ht) | ht
          · exact hle.le
          · exact hle.le.trans (h1.1 t ht)
          · exact h2.1 t ht

/-- What holds of the two queues. -/
structure Queues (ls is : List (Tree ℚ)) : Prop where
  ls_up : Up ls
  is_up : Up is
  sums : ∀ t ∈ ls ++ is, t.SumOk
  bound : ∃ m : ℚ, 0 ≤ m ∧ (∀ t ∈ ls ++ is, m ≤ t.weight) ∧ ∀ t ∈ is, t.weight ≤ 2 * m

/-- Total cost of the trees in the queues. -/
def inner (ts : List (Tree ℚ)) : ℚ := (ts.map fun t => t.wcost 0).sum

theorem inner_perm {a b : List (Tree ℚ)} (h : a.Perm b) : inner a = inner b := (h.map _).sum_eq

theorem step_queues {ls is ls1 is1 ls2 is2 : List (Tree ℚ)} {a b : Tree ℚ} (hq : Queues ls is)
    (ha : pickNode exact ls is = .ok (a, ls1, is1)) (hb : pickNode exact ls1 is1 = .ok (b, ls2, is2)) :
    let n := Tree.node (a.weight + b.weight) (max a.depth b.depth + 1) a b
    (a :: b :: (ls2 ++ is2)).Perm (ls ++ is) ∧ 0 ≤ a.weight ∧ a.weight ≤ b.weight ∧
      (∀ t ∈ ls2 ++ is2, b.weight ≤ t.weight) ∧ Queues ls2 (is2 ++ [n]) ∧ a.SumOk ∧ b.SumOk := by
  obtain ⟨h1, h2, h3, m, hm0, hm1, hm2⟩ := hq
  obtain ⟨pa, mina, sla, sia⟩ := pickNode_min h1 h2 ha
  have u1 := h1.sublist sla
  have u2 := h2.sublist sia
  obtain ⟨pb, minb, slb, sib⟩ := pickNode_min u1 u2 hb
  have hperm : (a :: b :: (ls2 ++ is2)).Perm (ls ++ is) := (pb.cons a).trans pa
  have hma : m ≤ a.weight := hm1 a (hperm.mem_iff.1 (by simp))
  have hab : a.weight ≤ b.weight := mina b (pb.mem_iff.1 (by simp))
  have hsub : ∀ t ∈ ls2 ++ is2, t ∈ ls ++ is := fun t ht => hperm.mem_iff.1 (by simp only [List.mem_cons]; exact Or.inr (Or.inr ht))
  have sa : a.SumOk := h3 a (hperm.mem_iff.1 (by simp))
  have sb : b.SumOk := h3 b (hperm.mem_iff.1 (by simp))
  have hi : ∀ t ∈ is2, t.weight ≤ a.weight + b.weight := by
    intro t ht
    have := hm2 t (sia.subset (sib.subset ht))
    linarith
  refine ⟨hperm, hm0.trans hma, hab, minb, ⟨u1.sublist slb, ?_, ?_, b.weight, ?_, ?_, ?_⟩, sa, sb⟩
  · rw [Up, List.pairwise_append]
    refine ⟨u2.sublist sib, by simp, ?_⟩
    intro t ht n hn
    rw [List.mem_singleton] at hn
    rw [hn]
    exact hi t ht
  · intro t ht
    simp only [List.mem_append, List.mem_singleton] at ht
    rcases ht with ht | ht | rfl
    · exact h3 t (hsub t (by simp [ht]))
    · exact h3 t (hsub t (by simp [ht]))
    · exact ⟨rfl, sa, sb⟩
  · linarith
  · intro t ht
    simp only [List.mem_append, List.mem_singleton] at ht
    rcases ht with ht | ht | rfl
    · exact minb t (by simp [ht])
    · exact minb t (by simp [ht])
    · change b.weight ≤ a.weight + b.weight
      linarith
  · intro t ht
    simp only [List.mem_append, List.mem_singleton] at ht
    rcases ht with ht | rfl
    · have := hi t ht; linarith
    · change a.weight + b.weight ≤ _
      linarith

theorem plan_nonneg (P : Plan) (h : ∀ w ∈ P.map (·.1), 0 ≤ w) : 0 ≤ Plan.cost P := by
  induction P with
  | nil => simp [Plan.cost]
  | cons p P ih =>
    rw [cost_cons]
    have h1 : 0 ≤ p.1 := h p.1 (by simp)
    have h2 : (0 : ℚ) ≤ p.2 := by exact_mod_cast Nat.zero_le _
    have := mul_nonneg h1 h2
    have := ih (fun w hw => h w (by simp only [List.map_cons, List.mem_cons]; exact Or.inr hw))
    linarith

theorem buildLoop_opt (fuel : Nat) : ∀ (ls is : List (Tree ℚ)) (T : Tree ℚ),
    buildLoop exact fuel ls is = .ok ([], [T]) → Queues ls is →
    ∀ P : Plan, (P.map (·.1)).Perm ((ls ++ is).map Tree.weight) → Plan.Kraft P →
      T.wcost 0 ≤ Plan.cost P + inner (ls ++ is) := by
  have base : ∀ (T : Tree ℚ), Queues [] [T] → ∀ P : Plan, (P.map (·.1)).Perm ([T].map Tree.weight) →
      T.wcost 0 ≤ Plan.cost P + inner [T] := by
    intro T hq P hP
    obtain ⟨m, hm0, hm1, _⟩ := hq.bound
    have := plan_nonneg P (fun w hw => by
      have : w ∈ [T].map Tree.weight := hP.mem_iff.1 hw
      simp only [List.map_cons, List.map_nil, List.mem_singleton] at this
      rw [this]
      exact hm0.trans (hm1 T (by simp)))
    simp only [inner, List.map_cons, List.map_nil, List.sum_cons, List.sum_nil]
    linarith
  induction fuel with
  | zero =>
    intro ls is T h hq P hP _
    unfold buildLoop at h
    split at h
    · simp at h
    · simp only [Except.ok.injEq, Prod.mk.injEq] at h
      obtain ⟨rfl, rfl⟩ := h
      exact base T hq P hP
  | succ fuel ih =>
    intro ls is T h hq P hP hk
    unfold buildLoop at h
    split at h
    · simp only [bind, Except.bind] at h
      cases ha : pickNode exact ls is with
      | error e => rw [ha] at h; simp at h
      | ok x =>
        obtain ⟨a, ls1, is1⟩ := x
        rw [ha] at h
        simp only at h
        cases hb : pickNode exact ls1 is1 with
        | error e => rw [hb] at h; simp at h
        | ok y =>
          obtain ⟨b, ls2, is2⟩ := y
          rw [hb] at h
          simp only at h
          obtain ⟨hperm, ha0, hab, hbm, hq', sa, sb⟩ := step_queues hq ha hb
          have hw := hperm.map Tree.weight
          simp only [List.map_cons] at hw
          obtain ⟨P', p1, p2, p3⟩ := merge_plan a.weight b.weight ((ls2 ++ is2).map Tree.weight) ha0 hab
            (fun w hw => by
              obtain ⟨t, ht, rfl⟩ := List.mem_map.1 hw
              exact hbm t ht) P (hP.trans hw.symm) hk
          have := ih _ _ T h hq' P' (by
            refine p1.trans ?_
            rw [← List.append_assoc, List.map_append (l₁ := ls2 ++ is2)]
            exact (List.perm_append_singleton _ _).symm) p2
          refine this.trans ?_
          rw [← inner_perm hperm, ← List.append_assoc]
          have e1 : inner ((ls2 ++ is2) ++ [Tree.node (exact.add a.weight b.weight) (max a.depth b.depth + 1) a b]) =
              inner (ls2 ++ is2) + ((a.wcost 0 + a.weight) + (b.wcost 0 + b.weight)) := by
            simp only [inner, List.map_append, List.sum_append, List.map_cons, List.map_nil, List.sum_cons, List.sum_nil,
              wcost_node, wcost_succ _ sa, wcost_succ _ sb, add_zero]
          rw [e1]
          have e2 : inner (a :: b :: (ls2 ++ is2)) = a.wcost 0 + (b.wcost 0 + inner (ls2 ++ is2)) := by
            simp only [inner, List.map_cons, List.sum_cons]
          rw [e2]
          linarith
    · simp only [Except.ok.injEq, Prod.mk.injEq] at h
      obtain ⟨rfl, rfl⟩ := h
      exact base T hq P hP

theorem buildLoop_wsyms (fuel : Nat) : ∀ (ls is : List (Tree ℚ)) (T : Tree ℚ),
    buildLoop exact fuel ls is = .ok ([], [T]) → T.wsyms.Perm ((ls ++ is).flatMap Tree.wsyms) := by
  induction fuel with
  | zero =>
    intro ls is T h
    unfold buildLoop at h
    split at h
    · simp at h
    · simp only [Except.ok.injEq, Prod.mk.injEq] at h
      obtain ⟨rfl, rfl⟩ := h
      simp
  | succ fuel ih =>
    intro ls is T h
    unfold buildLoop at h
    split at h
    · rename_i hlen
      simp only [bind, Except.bind] at h
      obtain ⟨a, ls1, is1, ha, pa⟩ := pickNode_spec exact ls is (by omega)
      rw [ha] at h
      simp only at h
      have hl := pa.length_eq
      simp only [List.length_cons, List.length_append] at hl
      obtain ⟨b, ls2, is2, hb, pb⟩ := pickNode_spec exact ls1 is1 (by omega)
      rw [hb] at h
      simp only at h
      refine (ih _ _ T h).trans ?_
      have hperm : (a :: b :: (ls2 ++ is2)).Perm (ls ++ is) := (pb.cons a).trans pa
      refine List.Perm.trans ?_ (hperm.flatMap_right Tree.wsyms)
      rw [← List.append_assoc, List.flatMap_append]
      simp only [List.flatMap_cons, List.flatMap_nil, List.append_nil, Tree.wsyms]
      rw [← List.append_assoc (Tree.wsyms a)]
      exact List.perm_append_comm
    · simp only [Except.ok.injEq, Prod.mk.injEq] at h
      obtain ⟨rfl, rfl⟩ := h
      simp

theorem weight_nonneg (q : Nat) : 0 ≤ Spec.weight q := by
  unfold Spec.weight
  split
  · norm_num
  · exact_mod_cast Nat.zero_le _

/-- The plan of a code. -/
def planOf (wt : Nat → ℚ) (table : FreqTable) (codes : List (List Bool)) : Plan :=
  table.map fun e => (wt e.2, ((codes[e.1]?).getD []).length)

/-- The cost of a code with these weights. -/
def costBy (wt : Nat → ℚ) (table : FreqTable) (codes : List (List Bool)) : ℚ :=
  (table.map fun e => wt e.2 * (((codes[e.1]?).getD []).length : ℚ)).sum

theorem planOf_cost (wt : Nat → ℚ) (table : FreqTable) (codes : List (List Bool)) :
    Plan.cost (planOf wt table codes) = costBy wt table codes := by
  simp only [Plan.cost, planOf, costBy, List.map_map]
  rfl

/-- A prefix-free code satisfies Kraft's inequality. -/
theorem planOf_kraft (wt : Nat → ℚ) (table : FreqTable) (codes : List (List Bool)) (n : Nat) (hn : codes.length = n)
    (hs : (table.map (·.1)).Perm (List.range n)) (hf : PrefixFree codes) : Plan.Kraft (planOf wt table codes) := by
  obtain ⟨L, hL⟩ : ∃ L, ∀ c ∈ codes, c.length ≤ L := by
    clear hn hf
    induction codes with
    | nil => exact ⟨0, by simp⟩
    | cons c cs ih =>
      obtain ⟨L, hL⟩ := ih
      refine ⟨max L c.length, ?_⟩
      intro d hd
      rcases List.mem_cons.1 hd with rfl | hd
      · exact le_max_right _ _
      · exact (hL d hd).trans (le_max_left _ _)
  have hk := kraft_of_free L codes (pairwise_of_free hf) hL
  refine ⟨L, ?_, ?_⟩
  · intro p hp
    obtain ⟨e, he, rfl⟩ := List.mem_map.1 hp
    have : e.1 < codes.length := by
      rw [hn]
      exact List.mem_range.1 (hs.mem_iff.1 (List.mem_map_of_mem he))
    rw [List.getElem?_eq_getElem this]
    exact hL _ (List.getElem_mem this)
  · have e1 : ((planOf wt table codes).map fun p => 2 ^ (L - p.2)) =
        (table.map (·.1)).map fun s => 2 ^ (L - ((codes[s]?).getD []).length) := by
      simp only [planOf, List.map_map]
      rfl
    rw [e1, (hs.map _).sum_eq]
    refine le_trans (le_of_eq ?_) hk
    congr 1
    subst hn
    apply List.ext_getElem
    · simp
    · intro i h1 h2
      simp only [List.length_map, List.length_range] at h1
      simp [List.getElem?_eq_getElem h1]

/-- Exact weights of any kind. -/
def exactBy (wt : Nat → ℚ) : Weights ℚ where
  add := (· + ·)
  le a b := decide (a ≤ b)
  ofFreq freq _ := .ok (wt freq)

theorem buildLoop_of {W : Type} (a : W → W → W) (l : W → W → Bool) (o1 o2 : Nat → Nat → Py W) (fuel : Nat) :
    ∀ ls is : List (Tree W), buildLoop ⟨a, l, o1⟩ fuel ls is = buildLoop ⟨a, l, o2⟩ fuel ls is := by
  induction fuel with
  | zero => intro ls is; rfl
  | succ fuel ih =>
    intro ls is
    have hp : ∀ ls is : List (Tree W), pickNode ⟨a, l, o1⟩ ls is = pickNode ⟨a, l, o2⟩ ls is := fun _ _ => rfl
    simp only [buildLoop, hp, ih]

theorem tree_opt_by (wt : Nat → ℚ) (hwt : ∀ q, 0 ≤ wt q) {table : FreqTable} {T : Tree ℚ}
    (hT : buildCodeTree (exactBy wt) table 1 = .ok T) {n : Nat}
    (hs : (table.map (·.1)).Perm (List.range n)) {codes : List (List Bool)}
    (hc : ∀ (i : Nat) (c : List Bool), codes[i]? = some c → AtDepth i T c.length) (hlen : codes.length = n)
    (other : List (List Bool)) (ho : other.length = n) (hf : PrefixFree other) :
    costBy wt table codes ≤ costBy wt table other := by
  obtain ⟨h2, ls, hl⟩ := buildCodeTree_inv (exactBy wt) hT
  obtain ⟨T', e, hsy, -, -, hloop⟩ := buildCodeTree_ok (exactBy wt) table 1 h2 hl
  rw [hT] at e
  cases e
  have hls : ls = table.map fun e => (wt e.2, e.1) := by
    have hfa := makeLeaves_spec (exactBy wt) 1 table hl
    clear hl hloop hT hsy hc h2 hs
    induction hfa with
    | nil => rfl
    | cons h _ ih =>
      rw [List.map_cons, ih]
      congr 1
      obtain ⟨h1, h2⟩ := h
      simp only [exactBy, Except.ok.injEq] at h2
      exact Prod.ext h2.symm h1
  have hloop' : buildLoop exact ls.length ((sortBy (leafLe (exactBy wt)) ls).map fun p => Tree.leaf p.1 p.2) [] = .ok ([], [T]) :=
    (buildLoop_of _ _ _ _ _ _ _).trans hloop
  have hperm := sortBy_perm (leafLe (exactBy wt)) ls
  have htot : ∀ a b : ℚ × Nat, leafLe (exactBy wt) a b = true ∨ leafLe (exactBy wt) b a = true := by
    intro a b
    simp only [leafLe, exactBy, Bool.or_eq_true, Bool.not_eq_true', decide_eq_false_iff_not, not_le, Bool.and_eq_true,
      decide_eq_true_eq]
    rcases lt_trichotomy a.1 b.1 with h | h | h
    · exact Or.inl (Or.inl h)
    · rcases Nat.le_total a.2 b.2 with h' | h'
      · exact Or.inl (Or.inr ⟨h.le, h'⟩)
      · exact Or.inr (Or.inr ⟨h.ge, h'⟩)
    · exact Or.inr (Or.inl h)
  have htr : ∀ a b c : ℚ × Nat, leafLe (exactBy wt) a b = true → leafLe (exactBy wt) b c = true → leafLe (exactBy wt) a c = true := by
    intro a b c
    simp only [leafLe, exactBy, Bool.or_eq_true, Bool.not_eq_true', decide_eq_false_iff_not, not_le, Bool.and_eq_true,
      decide_eq_true_eq]
    rintro (h1 | ⟨h1, h1'⟩) (h2 | ⟨h2, h2'⟩)
    · exact Or.inl (h1.trans h2)
    · exact Or.inl (lt_of_lt_of_le h1 h2)
    · exact Or.inl (lt_of_le_of_lt h1 h2)
    · exact Or.inr ⟨h1.trans h2, h1'.trans h2'⟩
  have hsorted := sortBy_sorted (leafLe (exactBy wt)) htot htr ls
  have hweights : ∀ p ∈ ls, 0 ≤ p.1 := by
    intro p hp
    rw [hls] at hp
    obtain ⟨e, _, rfl⟩ := List.mem_map.1 hp
    exact hwt _
  have hq : Queues ((sortBy (leafLe (exactBy wt)) ls).map fun p => Tree.leaf p.1 p.2) [] := by
    refine ⟨?_, List.Pairwise.nil, ?_, 0, le_refl _, ?_, by simp⟩
    · rw [Up, List.pairwise_map]
      refine hsorted.imp ?_
      intro a b h
      simp only [leafLe, exactBy, Bool.or_eq_true, Bool.not_eq_true', decide_eq_false_iff_not, not_le, Bool.and_eq_true,
        decide_eq_true_eq] at h
      rcases h with h | h
      · exact h.le
      · exact h.1
    · intro t ht
      simp only [List.append_nil, List.mem_map] at ht
      obtain ⟨p, _, rfl⟩ := ht
      trivial
    · intro t ht
      simp only [List.append_nil, List.mem_map] at ht
      obtain ⟨p, hp, rfl⟩ := ht
      exact hweights p (hperm.mem_iff.1 hp)
  have hopt := buildLoop_opt ls.length _ [] T hloop' hq (planOf wt table other) (by
    simp only [List.append_nil, List.map_map]
    refine List.Perm.trans ?_ ((hperm.map _).symm)
    rw [hls]
    simp only [planOf, List.map_map]
    exact List.Perm.refl _) (planOf_kraft wt table other n ho hs hf)
  have h0 : inner (((sortBy (leafLe (exactBy wt)) ls).map fun p => Tree.leaf p.1 p.2) ++ []) = 0 := by
    rw [List.append_nil]
    generalize sortBy (leafLe (exactBy wt)) ls = l
    induction l with
    | nil => rfl
    | cons p l ih =>
      simp only [inner, List.map_cons, List.sum_cons] at ih ⊢
      rw [ih, wcost_leaf]
      simp
  rw [h0, add_zero, planOf_cost] at hopt
  refine le_trans (le_of_eq ?_) hopt
  -- the code has the cost of the tree
  have hws : T.wsyms.Perm (table.map fun e => (e.1, wt e.2)) := by
    refine (buildLoop_wsyms _ _ _ T hloop').trans ?_
    rw [List.append_nil]
    have e1 : ∀ l : List (ℚ × Nat), (l.map fun p => Tree.leaf p.1 p.2).flatMap Tree.wsyms = l.map fun p => (p.2, p.1) := by
      intro l
      induction l with
      | nil => rfl
      | cons p l ih => simp [Tree.wsyms, ih]
    rw [e1]
    refine (hperm.map _).trans ?_
    rw [hls, List.map_map]
    exact List.Perm.refl _
  have hcode : ∀ p ∈ T.wleaves 0, ((codes[p.1.1]?).getD []).length = p.2 := by
    intro p hp
    have hm : (p.2, p.1.1) ∈ T.leaves 0 := by
      rw [← wleaves_leaves]
      exact List.mem_map.2 ⟨p, hp, rfl⟩
    have hs1 : p.1.1 ∈ T.syms := by
      rw [← Tree.leaves_syms T 0]
      exact List.mem_map.2 ⟨_, hm, rfl⟩
    have hlt : p.1.1 < codes.length := by
      rw [hlen]
      exact List.mem_range.1 ((hsy.trans hs).mem_iff.1 hs1)
    have hd := hc p.1.1 _ (List.getElem?_eq_getElem hlt)
    rw [List.getElem?_eq_getElem hlt, Option.getD_some]
    have hm2 : (codes[p.1.1].length, p.1.1) ∈ T.leaves 0 := (Tree.mem_leaves T 0 _ _).2 ⟨_, by omega, hd⟩
    have hnd : ((T.leaves 0).map (·.2)).Nodup := by
      rw [Tree.leaves_syms]
      exact ((hsy.trans hs).nodup_iff).2 List.nodup_range
    have := List.inj_on_of_nodup_map hnd hm hm2 rfl
    simp only [Prod.mk.injEq] at this
    exact this.1.symm
  have e2 : T.wcost 0 = (T.wsyms.map fun q => q.2 * (((codes[q.1]?).getD []).length : ℚ)).sum := by
    rw [← wleaves_wsyms T 0, List.map_map]
    unfold Tree.wcost
    congr 1
    apply List.map_congr_left
    intro p hp
    simp only [Function.comp]
    rw [hcode p hp]
  rw [e2, (hws.map _).sum_eq, List.map_map]
  rfl

theorem mapW_id (t : Tree ℚ) : t.mapW id = t := by
  induction t with
  | leaf w s => rfl
  | node w d l r hl hr => simp only [Tree.mapW, hl, hr, id]

theorem tree_opt {table : FreqTable} {T : Tree ℚ} (hT : buildCodeTree exact table 1 = .ok T) {n : Nat}
    (hs : (table.map (·.1)).Perm (List.range n)) {codes : List (List Bool)}
    (hc : ∀ (i : Nat) (c : List Bool), codes[i]? = some c → AtDepth i T c.length) (hlen : codes.length = n)
    (other : List (List Bool)) (ho : other.length = n) (hf : PrefixFree other) :
    Spec.cost table codes ≤ Spec.cost table other := by
  have hcarry : Carries (exactBy Spec.weight) exact id := ⟨fun _ _ => rfl, fun _ _ => rfl⟩
  have := buildCodeTree_carry hcarry 1 1 table (fun e _ => by
    simp only [exact, exactFreq, exactBy, Except.map, id]
    rw [if_neg (by norm_num)]
    simp)
  rw [hT] at this
  cases h : buildCodeTree (exactBy Spec.weight) table 1 with
  | error e =>
    rw [h] at this
    cases this
  | ok T' =>
    rw [h] at this
    simp only [Except.map, mapW_id, Except.ok.injEq] at this
    subst this
    exact tree_opt_by Spec.weight weight_nonneg h hs hc hlen other ho hf

end Verif.Huff
