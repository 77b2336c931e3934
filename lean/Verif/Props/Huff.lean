import Verif.Huff.Shipped
/-
C19, C21 and C22: the Huffman codes of delta2/huffman.py.
-/
namespace Verif.Props
open Verif Verif.Bits Verif.Bits.Spec Verif.Huff Verif.Huff.Spec

/-! ### C19 -/

/-- C19, for dictionaries that deliver the code lengths in ascending order, and for any arithmetic
on the weights (floats included): the code words are packed with their lengths, no one is a prefix
of another, they use up all bit strings, each is as long as its symbol is deep in the tree, and the
rebuilt decode tree leads each to its symbol.

Missing: the code relies on the iteration order of a dictionary, see `C19_false`. -/
theorem C19_canonical_partial {W : Type} (ops : Weights W) (ord : Dict Nat (List Nat) → List (Nat × List Nat))
    (table : FreqTable) (n divisor : Nat) (hsyms : (table.map (·.1)).Perm (List.range n)) (t : Huff.Tree W)
    (ht : buildCodeTree ops table divisor = .ok t)
    (hord : ∀ d, discover t.size [(t, 0)] [] = .ok d → (ord d).Perm d ∧ (ord d).Pairwise fun a b => a.1 < b.1) :
    ∃ h codes, buildCodeTable ord t = .ok h ∧
      h.codeTable = codes.map (fun c => (pack c, c.length)) ∧ codes.length = n ∧
      PrefixFree codes ∧ Complete codes ∧
      (∀ (i : Nat) (c : List Bool), codes[i]? = some c → c ≠ [] ∧ AtDepth i t c.length ∧ Leads h.tree c i) := by
  obtain ⟨hs, _, hn⟩ := buildCodeTree_spec ops ht
  obtain ⟨h, codes, e, hc, ho⟩ := buildCodeTable_spec ord t n hn (hs.trans hsyms) hord
  exact ⟨h, codes, e, hc.table, ho.len, ho.free, ho.full,
    fun i c hi => ⟨ho.nonempty c (List.mem_of_getElem? hi), ho.depth i c hi, hc.leads i c hi⟩⟩

/-- C19 for every order in which the dictionary may deliver its entries: if the constructor does not
raise ValueError, the code is as it should be. -/
theorem C19_any_order {W : Type} (ops : Weights W) (ord : Dict Nat (List Nat) → List (Nat × List Nat))
    (table : FreqTable) (n divisor : Nat) (hsyms : (table.map (·.1)).Perm (List.range n)) (t : Huff.Tree W)
    (ht : buildCodeTree ops table divisor = .ok t)
    (hord : ∀ d, discover t.size [(t, 0)] [] = .ok d → (ord d).Perm d) :
    buildCodeTable ord t = .error .value ∨ ∃ h codes, buildCodeTable ord t = .ok h ∧
      h.codeTable = codes.map (fun c => (pack c, c.length)) ∧ codes.length = n ∧
      PrefixFree codes ∧ Complete codes ∧
      (∀ (i : Nat) (c : List Bool), codes[i]? = some c → c ≠ [] ∧ AtDepth i t c.length ∧ Leads h.tree c i) := by
  obtain ⟨hs, _, hn⟩ := buildCodeTree_spec ops ht
  rcases buildCodeTable_total ord t n hn (hs.trans hsyms) hord with ⟨h, codes, e, hc, ho⟩ | h
  · exact .inr ⟨h, codes, e, hc.table, ho.len, ho.free, ho.full,
      fun i c hi => ⟨ho.nonempty c (List.mem_of_getElem? hi), ho.depth i c hi, hc.leads i c hi⟩⟩
  · exact .inl h

/-- A table with three symbols. -/
def smallTable : FreqTable := [(0, 5), (1, 2), (2, 0)]

example : buildCodeTree whole smallTable 1 =
    .ok (.node 3585 2 (.node 1025 1 (.leaf 1 2) (.leaf 1024 1)) (.leaf 2560 0)) := by decide +kernel
example : (∃ t, buildCodeTree whole smallTable 1 = .ok t ∧
    discover t.size [(t, 0)] [] = .ok [(1, [0]), (2, [2, 1])]) := ⟨_, rfl, by decide +kernel⟩
example : ((buildCodeTree whole smallTable 1).bind (buildCodeTable cpyOrder)).map (·.codeTable) =
    .ok [([0], 1), ([128], 2), ([192], 2)] := by decide +kernel

/-- C19 for the shipped tables under CPython's iteration order: the constructor succeeds. -/
theorem C19_shipped (table : FreqTable)
    (h : table = requestTable ∨ table = responseTable ∨ table = oldRequestTable ∨ table = oldResponseTable) :
    ∃ h codes, huffman exact cpyOrder table = .ok h ∧
      h.codeTable = codes.map (fun c => (pack c, c.length)) ∧ codes.length = 257 ∧
      PrefixFree codes ∧ Complete codes ∧
      (∀ (i : Nat) (c : List Bool), codes[i]? = some c → 0 < c.length ∧ c.length ≤ 32 ∧ Leads h.tree c i) := by
  have hok : tableOk table = true := by
    rcases h with rfl | rfl | rfl | rfl
    · exact request_ok
    · exact response_ok
    · exact oldRequest_ok
    · exact oldResponse_ok
  obtain ⟨hs, t, ht, hd, hasc⟩ := tableOk_spec hok
  obtain ⟨hsy, hdo, hn⟩ := buildCodeTree_spec whole ht
  rw [hs] at hsy
  obtain ⟨h, codes, e, hc, ho⟩ := buildCodeTable_spec cpyOrder t 257 hn hsy hasc
  refine ⟨h, codes, ?_, hc.table, ho.len, ho.free, ho.full, fun i c hi => ⟨?_, ?_, hc.leads i c hi⟩⟩
  · rw [huffman_exact cpyOrder ht, if_pos hd, e]
  · exact List.length_pos_iff.2 (ho.nonempty c (List.mem_of_getElem? hi))
  · exact (atDepth_le hdo (ho.depth i c hi)).trans hd

/-- One symbol three times as frequent as 256 others. -/
def skewTable : FreqTable := (0, 3) :: (List.range 256).map fun i => (i + 1, 1)

/-- C19 is false of the code: with the code lengths 7, 8 and 9 CPython delivers 8 before 9 before 7, and
the code raises ValueError (negative shift count). -/
theorem C19_false : huffman exact cpyOrder skewTable = .error .value := by
  have h1 : (buildCodeTree whole skewTable 1).map Tree.depth = .ok 9 := by decide +kernel
  have h2 : (buildCodeTree whole skewTable 1).bind (canonicalTable cpyOrder) = .error .value := by decide +kernel
  cases ht : buildCodeTree whole skewTable 1 with
  | error e => rw [ht] at h1; simp [Except.map] at h1
  | ok t =>
    rw [ht] at h1 h2
    simp only [Except.map, Except.ok.injEq] at h1
    simp only [Except.bind] at h2
    rw [huffman_exact cpyOrder ht, if_pos (by omega)]
    simp only [buildCodeTable, bind, Except.bind, h2]

/-! ### C21 -/

/-- C21: the tree has the same shape for every divisor (and for exact weights the weights are
divided). -/
theorem C21_divisor (table : FreqTable) (d : Nat) (hd : 0 < d) (hlt : d < 2 ^ 1024) (t : Huff.Tree ℚ)
    (h : buildCodeTree exact table 1 = .ok t) :
    ∃ t', buildCodeTree exact table d = .ok t' ∧ ∀ s n, AtDepth s t' n ↔ AtDepth s t n := by
  rw [exact_tree table 1 (by omega) (by norm_num)] at h
  rw [exact_tree table d hd hlt]
  cases hb : buildCodeTree whole table 1 with
  | error e => rw [hb] at h; simp [Except.map] at h
  | ok u =>
    rw [hb] at h
    simp only [Except.map, Except.ok.injEq] at h
    refine ⟨_, rfl, ?_⟩
    have back : ∀ (f : Nat → ℚ) (s n : Nat), AtDepth s (u.mapW f) n ↔ AtDepth s u n := by
      intro f s n
      have e : ∀ k, (u.mapW f).leaves k = u.leaves k := by
        clear hb h
        induction u with
        | leaf => intro k; rfl
        | node w d l r ihl ihr => intro k; simp [Tree.mapW, Tree.leaves, ihl, ihr]
      have a := Tree.mem_leaves (u.mapW f) 0 n s
      have b := Tree.mem_leaves u 0 n s
      rw [e] at a
      constructor
      · intro h
        obtain ⟨m, hm, hx⟩ := b.1 (a.2 ⟨n, by omega, h⟩)
        have : n = m := by omega
        rw [this]; exact hx
      · intro h
        obtain ⟨m, hm, hx⟩ := a.1 (b.2 ⟨n, by omega, h⟩)
        have : n = m := by omega
        rw [this]; exact hx
    intro s n
    rw [← h, back, back]

example : (buildCodeTree whole smallTable 1).isOk = true := by decide +kernel

/-- C21 as far as it goes: a constructed code has no code word of more than 32 bits; if the only tree
there is has a deeper symbol, the constructor raises OverflowError after 1024 attempts.

Missing: the bound is not enforced, see `C21_false`. -/
theorem C21_limit_partial (ord : Dict Nat (List Nat) → List (Nat × List Nat)) (table : FreqTable) (n : Nat)
    (hn : 2 ≤ n) (hsyms : (table.map (·.1)).Perm (List.range n)) :
    ∃ t : Huff.Tree ℚ, buildCodeTree exact table 1 = .ok t ∧
      ((∀ s k, AtDepth s t k → k ≤ 32) → huffman exact ord table = buildCodeTable ord t) ∧
      ((∃ s k, AtDepth s t k ∧ 32 < k) → huffman exact ord table = .error .overflow) := by
  have hlen : 2 ≤ table.length := by
    have := hsyms.length_eq
    simp only [List.length_map, List.length_range] at this
    omega
  obtain ⟨t, ht, hs, hd, hnode⟩ := exact_total table hlen
  have he := exact_tree table 1 (by omega) (by norm_num)
  rw [ht] at he
  simp only [Except.map] at he
  refine ⟨_, he, ?_, ?_⟩
  · intro h
    rw [huffman_exact ord ht, if_pos, buildCodeTable_mapW]
    have hex : ∀ t : Huff.Tree Nat, ∃ s, AtDepth s t t.height := by
      intro t
      induction t with
      | leaf w s => exact ⟨s, .leaf w⟩
      | node w d l r ihl ihr =>
        obtain ⟨a, ha⟩ := ihl
        obtain ⟨b, hb⟩ := ihr
        rcases Nat.le_total l.height r.height with h | h
        · refine ⟨b, ?_⟩
          change AtDepth b _ (max l.height r.height + 1)
          rw [Nat.max_eq_right h]
          exact .right _ _ _ _ _ hb
        · refine ⟨a, ?_⟩
          change AtDepth a _ (max l.height r.height + 1)
          rw [Nat.max_eq_left h]
          exact .left _ _ _ _ _ ha
    obtain ⟨s, hs⟩ := hex t
    rw [Tree.depth_eq hd]
    exact h s _ (atDepth_mapW _ s t _ hs)
  · rintro ⟨s, k, ha, hk⟩
    have hdo : (t.mapW fun n : Nat => (n : ℚ) / (512 * (1 : Nat))).DepthOk := by
      have : ∀ (f : Nat → ℚ) (u : Huff.Tree Nat), u.DepthOk → (u.mapW f).DepthOk := by
        intro f u
        induction u with
        | leaf => intro _; trivial
        | node w d l r ihl ihr =>
          rintro ⟨h1, h2, h3⟩
          exact ⟨by rw [depth_mapW, depth_mapW]; exact h1, ihl h2, ihr h3⟩
      exact this _ t hd
    have := atDepth_le hdo ha
    rw [depth_mapW] at this
    rw [huffman_exact ord ht, if_neg (by omega)]

/-- The first 25 Fibonacci numbers, and 232 symbols that were never seen. -/
def fibTable : FreqTable :=
  ([1, 1, 2, 3, 5, 8, 13, 21, 34, 55, 89, 144, 233, 377, 610, 987, 1597, 2584, 4181, 6765, 10946, 17711, 28657, 46368,
    75025].zipIdx.map fun p => (p.2, p.1)) ++ (List.range 232).map fun i => (i + 25, 0)

example : (fibTable.map (·.1)).Perm (List.range 257) := by decide +kernel

/-- C21 is false: there is a table of 257 counts below 100000 for which the constructor raises. -/
theorem C21_false (ord : Dict Nat (List Nat) → List (Nat × List Nat)) :
    huffman exact ord fibTable = .error .overflow := by
  have h1 : (buildCodeTree whole fibTable 1).map Tree.depth = .ok 33 := by decide +kernel
  cases ht : buildCodeTree whole fibTable 1 with
  | error e => rw [ht] at h1; simp [Except.map] at h1
  | ok t =>
    rw [ht] at h1
    simp only [Except.map, Except.ok.injEq] at h1
    rw [huffman_exact ord ht, if_neg (by omega)]

/-! ### C22 -/

/-- C22: no prefix-free code for the same symbols gives a shorter total length (weights are exact
numbers here; symbols that were never seen count 1/512). -/
theorem C22_optimal (ord : Dict Nat (List Nat) → List (Nat × List Nat)) (table : FreqTable) (n : Nat)
    (hsyms : (table.map (·.1)).Perm (List.range n)) (t : Huff.Tree ℚ) (ht : buildCodeTree exact table 1 = .ok t)
    (hord : ∀ d, discover t.size [(t, 0)] [] = .ok d → (ord d).Perm d ∧ (ord d).Pairwise fun a b => a.1 < b.1) :
    ∃ h codes, buildCodeTable ord t = .ok h ∧ h.codeTable = codes.map (fun c => (pack c, c.length)) ∧
      codes.length = n ∧ PrefixFree codes ∧
      ∀ other : List (List Bool), other.length = n → PrefixFree other → cost table codes ≤ cost table other := by
  obtain ⟨hs, _, hn⟩ := buildCodeTree_spec exact ht
  obtain ⟨h, codes, e, hc, ho⟩ := buildCodeTable_spec ord t n hn (hs.trans hsyms) hord
  exact ⟨h, codes, e, hc.table, ho.len, ho.free,
    fun other h1 h2 => tree_opt ht hsyms ho.depth ho.len other h1 h2⟩

/-- C22 without the code table: the depths of the tree cost no more than any prefix-free code. -/
theorem C22_tree (table : FreqTable) (n : Nat) (hsyms : (table.map (·.1)).Perm (List.range n)) (t : Huff.Tree ℚ)
    (ht : buildCodeTree exact table 1 = .ok t) (codes : List (List Bool)) (hlen : codes.length = n)
    (hdepth : ∀ (i : Nat) (c : List Bool), codes[i]? = some c → AtDepth i t c.length)
    (other : List (List Bool)) (ho : other.length = n) (hf : PrefixFree other) :
    cost table codes ≤ cost table other :=
  tree_opt ht hsyms hdepth hlen other ho hf

example : cost smallTable [[false], [true, false], [true, true]] = 5 + 4 + 2 / 512 := by
  simp [cost, smallTable, Spec.weight]; norm_num
example : cost smallTable [[true, true], [true, false], [false]] = 10 + 4 + 1 / 512 := by
  simp [cost, smallTable, Spec.weight]; norm_num

end Verif.Props
