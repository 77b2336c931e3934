import Verif.Huff.Canon
import Verif.Bits.Use
import Mathlib.Data.List.Pairwise
/-
The code table and the decode tree of a Huffman object, and coding with them.
-/
namespace Verif.Huff
open Verif Verif.Bits Verif.Bits.Spec Verif.Huff.Spec

variable {W : Type}

/-! ### From the tree to the code table -/

/-- On the dictionary of this tree, `iteritems` goes from short to long codes. -/
def Ascending (ord : Dict Nat (List Nat) → List (Nat × List Nat)) (t : Tree W) : Prop :=
  ∀ d, discover t.size [(t, 0)] [] = .ok d → (ord d).Perm d ∧ (ord d).Pairwise fun a b => a.1 < b.1

theorem tabulate_spec (table : Dict Nat (List Nat × Nat)) (l : List Nat) (f : Nat → List Nat × Nat)
    (h : ∀ i ∈ l, table.get? i = some (f i)) : tabulate table l = .ok (l.map f) := by
  induction l with
  | nil => rfl
  | cons i l ih =>
    simp only [tabulate, h i (by simp), bind, Except.bind, ih (fun j hj => h j (by simp [hj])), pure, Except.pure,
      List.map_cons]

theorem get?_map {β γ : Type} (d : Dict Nat β) (f : β → γ) (k : Nat) :
    Dict.get? (d.map fun p => (p.1, f p.2)) k = (d.get? k).map f := by
  induction d with
  | nil => rfl
  | cons p d ih =>
    obtain ⟨k', v⟩ := p
    simp only [List.map_cons, Dict.get?]
    split
    · rfl
    · exact ih

/-- What is known of the codes of a tree. -/
structure CodesOf (t : Tree W) (n : Nat) (codes : List (List Bool)) : Prop where
  len : codes.length = n
  free : PrefixFree codes
  full : Complete codes
  depth : ∀ (i : Nat) (c : List Bool), codes[i]? = some c → AtDepth i t c.length
  nonempty : ∀ c ∈ codes, c ≠ []

theorem flat_perm {a b : List (Nat × List Nat)} (h : a.Perm b) : (flat a).Perm (flat b) := h.flatMap_right _

/-- The dictionary may deliver equal lengths only in ascending order. -/
def Sorted (ord : Dict Nat (List Nat) → List (Nat × List Nat)) (t : Tree W) : Prop :=
  ∀ d, discover t.size [(t, 0)] [] = .ok d → (ord d).Perm d ∧ (order (ord d)).Pairwise fun a b => a.1 ≤ b.1

theorem Ascending.sorted {ord : Dict Nat (List Nat) → List (Nat × List Nat)} {t : Tree W} (h : Ascending ord t) :
    Sorted ord t := fun d hd => ⟨(h d hd).1, order_sorted _ (h d hd).2⟩

theorem leaves_pos {t : Tree W} (hnode : ∃ w d l r, t = Tree.node w d l r) : ∀ p ∈ t.leaves 0, 0 < p.1 := by
  intro p hm
  obtain ⟨w, dd, l, r, rfl⟩ := hnode
  simp only [Tree.leaves, List.mem_append] at hm
  rcases hm with hm | hm
  · have := (l.leaves_bound _ p hm).1; omega
  · have := (r.leaves_bound _ p hm).1; omega

theorem canonicalTable_spec (ord : Dict Nat (List Nat) → List (Nat × List Nat)) (t : Tree W) (n : Nat)
    (hnode : ∃ w d l r, t = Tree.node w d l r) (hs : t.syms.Perm (List.range n)) (hord : Sorted ord t) :
    ∃ codes, canonicalTable ord t = .ok (codes.map fun c => (pack c, c.length)) ∧ CodesOf t n codes := by
  obtain ⟨d, hd, hp, hwf⟩ := discover_tree t
  obtain ⟨ho1, ho2⟩ := hord d hd
  have hperm : (order (ord d)).Perm (t.leaves 0) := (order_perm _).trans ((flat_perm ho1).trans hp)
  have hsyms : ((order (ord d)).map (·.2)).Perm (List.range n) := by
    refine (hperm.map _).trans ?_
    rw [Tree.leaves_syms]
    exact hs
  have hnd : ((order (ord d)).map (·.2)).Nodup := hsyms.nodup_iff.2 List.nodup_range
  have hfits : Fits t.height 0 0 (order (ord d)) := by
    refine ⟨ho2, fun _ _ => Nat.zero_le _, fun p hp' => ?_, fun p hp' => ?_, Nat.zero_le _, ?_⟩
    · have := (t.leaves_bound 0 p (hperm.mem_iff.1 hp')).2
      omega
    · exact leaves_pos hnode p (hperm.mem_iff.1 hp')
    · have h1 := t.kraft 0 t.height (by omega)
      have h2 := (hperm.map fun p => 2 ^ (t.height - p.1)).sum_eq
      rw [Nat.zero_mul, Nat.zero_add, h2, h1, Nat.sub_zero]
  obtain ⟨st, he, ht⟩ := canonAll_spec (order (ord d)) { code := -1, prev := 0, table := [] } hfits rfl rfl hnd
    (fun _ _ => rfl)
  simp only [List.nil_append] at ht
  have hA : ((assign 0 0 (order (ord d))).map (·.1)).Perm (List.range n) := by rw [assign_syms]; exact hsyms
  have hAnd : ((assign 0 0 (order (ord d))).map (·.1)).Nodup := hA.nodup_iff.2 List.nodup_range
  have hAlen : (assign 0 0 (order (ord d))).length = n := by
    have := hA.length_eq
    simpa using this
  have hget : ∀ i < n, ∃ c, Dict.get? (assign 0 0 (order (ord d))) i = some c := by
    intro i hi
    cases hg : Dict.get? (assign 0 0 (order (ord d))) i with
    | some c => exact ⟨c, rfl⟩
    | none =>
      rw [Dict.get?_none] at hg
      exact absurd (hA.mem_iff.2 (List.mem_range.2 hi)) hg
  have hpair := assign_ne (order (ord d)) hfits
  generalize hAA : assign 0 0 (order (ord d)) = A at *
  have hmem : ∀ i c, Dict.get? A i = some c → (i, c) ∈ A := fun i c h => Dict.get?_mem h
  refine ⟨(List.range n).map fun i => (Dict.get? A i).getD [], ?_, ?_, ?_, ?_, ?_, ?_⟩
  · unfold canonicalTable
    simp only [bind, Except.bind, hd, canonLoop_eq, he]
    rw [ht, List.length_map, hAlen, tabulate_spec _ _ (fun i => (pack ((Dict.get? A i).getD []), ((Dict.get? A i).getD []).length))]
    · rw [List.map_map]
      rfl
    · intro i hi
      obtain ⟨c, hc⟩ := hget i (List.mem_range.1 hi)
      rw [get?_map A (fun c => (pack c, c.length)), hc]
      rfl
  · simp
  · intro i j ci cj hi hj hpre
    simp only [List.getElem?_map, Option.map_eq_some_iff] at hi hj
    obtain ⟨a, ha, rfl⟩ := hi
    obtain ⟨b, hb, rfl⟩ := hj
    have ha2 := List.getElem?_eq_some_iff.1 ha
    have hb2 := List.getElem?_eq_some_iff.1 hb
    obtain ⟨ha3, ha4⟩ := ha2
    obtain ⟨hb3, hb4⟩ := hb2
    simp only [List.length_range] at ha3 hb3
    simp only [List.getElem_range] at ha4 hb4
    subst ha4 hb4
    obtain ⟨c, hc⟩ := hget _ ha3
    obtain ⟨c', hc'⟩ := hget _ hb3
    rw [hc, hc'] at hpre
    simp only [Option.getD_some] at hpre
    by_contra hne
    have hx := hmem _ _ hc
    have hy := hmem _ _ hc'
    have hsym : ∀ x ∈ A, ∀ y ∈ A, x ≠ y → ¬ x.2 <+: y.2 ∧ ¬ y.2 <+: x.2 := by
      intro x hx y hy hxy
      have : Std.Symm fun (a b : Nat × List Bool) => ¬ a.2 <+: b.2 ∧ ¬ b.2 <+: a.2 := ⟨fun a b h => h.symm⟩
      exact hpair.forall hx hy hxy
    exact (hsym _ hx _ hy (by intro e; exact hne (Prod.mk.inj e).1)).1 hpre
  · refine ⟨t.height, fun x hx => ?_⟩
    obtain ⟨p, hpA, hpre⟩ := assign_complete (order (ord d)) hfits (x.take t.height) (by simp [hx]) (by simp)
    rw [hAA] at hpA
    refine ⟨p.2, ?_, hpre.trans (List.take_prefix _ _)⟩
    rw [List.mem_map]
    have hlt : p.1 < n := List.mem_range.1 (hA.mem_iff.1 (List.mem_map_of_mem hpA))
    refine ⟨p.1, List.mem_range.2 hlt, ?_⟩
    have : Dict.get? A p.1 = some p.2 := (Dict.mem_iff_get? hAnd).1 hpA
    rw [this]
    rfl
  · intro i c hi
    simp only [List.getElem?_map, Option.map_eq_some_iff] at hi
    obtain ⟨a, ha, rfl⟩ := hi
    obtain ⟨ha3, ha4⟩ := List.getElem?_eq_some_iff.1 ha
    simp only [List.length_range] at ha3
    simp only [List.getElem_range] at ha4
    subst ha4
    obtain ⟨c, hc⟩ := hget _ ha3
    rw [hc]
    have h1 : (c.length, i) ∈ A.map fun p => (p.2.length, p.1) := List.mem_map.2 ⟨(i, c), hmem _ _ hc, rfl⟩
    rw [← hAA, assign_len] at h1
    obtain ⟨m, hm1, hm2⟩ := (t.mem_leaves 0 _ _).1 (hperm.mem_iff.1 h1)
    rw [Nat.zero_add] at hm1
    rw [Option.getD_some, hm1]
    exact hm2
  · intro c hc
    rw [List.mem_map] at hc
    obtain ⟨i, hi, rfl⟩ := hc
    obtain ⟨c, hc⟩ := hget _ (List.mem_range.1 hi)
    rw [hc]
    have h1 : (c.length, i) ∈ A.map fun p => (p.2.length, p.1) := List.mem_map.2 ⟨(i, c), hmem _ _ hc, rfl⟩
    rw [← hAA, assign_len] at h1
    have := hfits.pos _ h1
    simp only at this
    intro e
    rw [Option.getD_some] at e
    rw [e] at this
    simp at this

/-! ### The decode tree -/

theorem leads_empty (p : List Bool) (s : Nat) : ¬ Leads .empty p s := by
  intro h
  cases p <;> exact h

theorem leads_nn (p : List Bool) (s : Nat) : ¬ Leads (.node .empty .empty) p s := by
  intro h
  cases p with
  | nil => exact h
  | cons b p =>
    have h : Leads (if b then DTree.empty else DTree.empty) p s := h
    cases b <;> exact leads_empty _ _ h

theorem insert_spec (bits : List Bool) : ∀ (t : DTree) (sym : Nat), t ≠ .empty →
    (∀ p s, Leads t p s → ¬ p <+: bits) →
    ∃ t', t.insert bits sym = .ok t' ∧ t' ≠ .empty ∧ Leads t' bits sym ∧
      (∀ p s, Leads t p s → ¬ bits <+: p → Leads t' p s) ∧
      (∀ p s, Leads t' p s → (p = bits ∧ s = sym) ∨ Leads t p s) := by
  induction bits with
  | nil =>
    intro t sym ht hno
    refine ⟨.leaf sym, ?_, by simp, rfl, fun p s _ h => absurd (List.nil_prefix) h, fun p s h => ?_⟩
    · cases t <;> rfl
    · cases p with
      | nil => exact .inl ⟨rfl, Eq.symm h⟩
      | cons b p => exact absurd h (by intro h; exact h)
  | cons b bits ih =>
    intro t sym ht hno
    cases t with
    | empty => exact absurd rfl ht
    | leaf s => exact absurd List.nil_prefix (hno [] s rfl)
    | node l r =>
      have main : ∀ c : DTree, (∀ p s, Leads c p s → ¬ p <+: bits) → ∃ t',
          DTree.insert (if c = .empty then .node .empty .empty else c) bits sym = .ok t' ∧ Leads t' bits sym ∧
            (∀ p s, Leads c p s → ¬ bits <+: p → Leads t' p s) ∧
            (∀ p s, Leads t' p s → (p = bits ∧ s = sym) ∨ Leads c p s) := by
        intro c hc
        by_cases hce : c = .empty
        · rw [if_pos hce]
          obtain ⟨t', h1, h2, h3, h4, h5⟩ := ih (.node .empty .empty) sym (by simp)
            (fun p s h => absurd h (leads_nn p s))
          refine ⟨t', h1, h3, fun p s h => absurd h (by rw [hce]; exact leads_empty p s), fun p s h => ?_⟩
          rcases h5 p s h with h | h
          · exact .inl h
          · exact absurd h (leads_nn p s)
        · rw [if_neg hce]
          obtain ⟨t', h1, h2, h3, h4, h5⟩ := ih c sym hce hc
          exact ⟨t', h1, h3, h4, h5⟩
      cases b with
      | true =>
        obtain ⟨t', h1, h3, h4, h5⟩ := main r (fun p s h hp => hno (true :: p) s h (by simpa using hp))
        refine ⟨.node l t', by simp [DTree.insert, h1, bind, Except.bind, pure, Except.pure], by simp, h3, ?_, ?_⟩
        · intro p s h hp
          cases p with
          | nil => exact absurd h (by intro h; exact h)
          | cons x p =>
            cases x with
            | true => exact h4 p s h (by simpa using hp)
            | false => exact h
        · intro p s h
          cases p with
          | nil => exact absurd h (by intro h; exact h)
          | cons x p =>
            cases x with
            | true =>
              rcases h5 p s h with h | h
              · exact .inl ⟨by rw [h.1], h.2⟩
              · exact .inr h
            | false => exact .inr h
      | false =>
        obtain ⟨t', h1, h3, h4, h5⟩ := main l (fun p s h hp => hno (false :: p) s h (by simpa using hp))
        refine ⟨.node t' r, by simp [DTree.insert, h1, bind, Except.bind, pure, Except.pure], by simp, h3, ?_, ?_⟩
        · intro p s h hp
          cases p with
          | nil => exact absurd h (by intro h; exact h)
          | cons x p =>
            cases x with
            | false => exact h4 p s h (by simpa using hp)
            | true => exact h
        · intro p s h
          cases p with
          | nil => exact absurd h (by intro h; exact h)
          | cons x p =>
            cases x with
            | false =>
              rcases h5 p s h with h | h
              · exact .inl ⟨by rw [h.1], h.2⟩
              · exact .inr h
            | true => exact .inr h

theorem drain_spec (rest : List Bool) : ∀ (pre : List Bool) (bb : BitBucket), At bb pre rest →
    drain rest.length bb = .ok rest := by
  induction rest with
  | nil =>
    intro pre bb h
    have hc := at_consumed h
    simp only [List.length_nil, drain, hc]
    rfl
  | cons x rest ih =>
    intro pre bb h
    have hc := at_consumed h
    obtain ⟨b', he, hh⟩ := at_bit h
    simp only [List.length_cons, drain, hc, bind, Except.bind, he, ih _ _ hh, pure, Except.pure]
    cases x <;> simp

theorem rebuildLoop_spec (codes : List (List Bool)) (todo : List (List Bool)) : ∀ (sym : Nat) (t : DTree),
    PrefixFree codes → codes.drop sym = todo → t ≠ .empty →
    (∀ (i : Nat) (c : List Bool), i < sym → codes[i]? = some c → Leads t c i) →
    (∀ p s, Leads t p s → s < sym ∧ codes[s]? = some p) →
    ∃ t', rebuildLoop (todo.map fun c => (pack c, c.length)) sym t = .ok t' ∧
      ∀ (i : Nat) (c : List Bool), codes[i]? = some c → Leads t' c i := by
  induction todo with
  | nil =>
    intro sym t hf hd ht h1 h2
    refine ⟨t, rfl, fun i c hi => h1 i c ?_ hi⟩
    have := List.getElem?_eq_some_iff.1 hi
    have h3 := List.drop_eq_nil_iff.1 hd
    have := this.1
    omega
  | cons c todo ih =>
    intro sym t hf hd ht h1 h2
    have hc : codes[sym]? = some c := by
      have := congrArg (fun l : List (List Bool) => l[0]?) hd
      simpa using this
    have hd' : codes.drop (sym + 1) = todo := by
      have := congrArg (List.drop 1) hd
      rw [List.drop_drop] at this
      simpa using this
    obtain ⟨t', e, hne, l1, l2, l3⟩ := insert_spec c t sym ht (by
      intro p s hl hp
      obtain ⟨a, b⟩ := h2 p s hl
      have := hf s sym p c b hc hp
      omega)
    obtain ⟨t'', e', hfin⟩ := ih (sym + 1) t' hf hd' hne
      (by
        intro i c' hi hci
        by_cases his : i = sym
        · subst his
          rw [hc] at hci
          cases hci
          exact l1
        · exact l2 c' i (h1 i c' (by omega) hci) (fun hp => his (hf sym i c c' hc hci hp).symm))
      (by
        intro p s hl
        rcases l3 p s hl with ⟨rfl, rfl⟩ | hl
        · exact ⟨by omega, hc⟩
        · obtain ⟨a, b⟩ := h2 p s hl
          exact ⟨by omega, b⟩)
    refine ⟨t'', ?_, hfin⟩
    obtain ⟨bb, hb, hw⟩ := wrote_store wrote_empty c
    simp only [List.map_cons, rebuildLoop, bind, Except.bind, hb, drain_spec c [] bb hw.start, e, e']

theorem rebuild_spec (codes : List (List Bool)) (hf : PrefixFree codes) :
    ∃ t, rebuild (codes.map fun c => (pack c, c.length)) = .ok t ∧
      ∀ (i : Nat) (c : List Bool), codes[i]? = some c → Leads t c i :=
  rebuildLoop_spec codes codes 0 _ hf rfl (by simp) (fun i c hi => absurd hi (by omega))
    (fun p s h => absurd h (leads_nn p s))

/-! ### Coding -/

/-- The object codes with these code words. -/
structure Codes (h : Huffman) (codes : List (List Bool)) : Prop where
  table : h.codeTable = codes.map fun c => (pack c, c.length)
  leads : ∀ (i : Nat) (c : List Bool), codes[i]? = some c → Leads h.tree c i
  nonempty : ∀ c ∈ codes, c ≠ []

theorem buildCodeTable_sorted (ord : Dict Nat (List Nat) → List (Nat × List Nat)) (t : Tree W) (n : Nat)
    (hnode : ∃ w d l r, t = Tree.node w d l r) (hs : t.syms.Perm (List.range n)) (hord : Sorted ord t) :
    ∃ h codes, buildCodeTable ord t = .ok h ∧ Codes h codes ∧ CodesOf t n codes := by
  obtain ⟨codes, e1, hc⟩ := canonicalTable_spec ord t n hnode hs hord
  obtain ⟨tree, e2, hl⟩ := rebuild_spec codes hc.free
  refine ⟨⟨codes.map fun c => (pack c, c.length), tree⟩, codes, ?_, ⟨rfl, hl, hc.nonempty⟩, hc⟩
  simp only [buildCodeTable, bind, Except.bind, e1, e2, pure, Except.pure]

theorem buildCodeTable_spec (ord : Dict Nat (List Nat) → List (Nat × List Nat)) (t : Tree W) (n : Nat)
    (hnode : ∃ w d l r, t = Tree.node w d l r) (hs : t.syms.Perm (List.range n)) (hord : Ascending ord t) :
    ∃ h codes, buildCodeTable ord t = .ok h ∧ Codes h codes ∧ CodesOf t n codes :=
  buildCodeTable_sorted ord t n hnode hs hord.sorted

/-- Whatever the order of the dictionary: the code is as it should be, or there is a ValueError. -/
theorem buildCodeTable_total (ord : Dict Nat (List Nat) → List (Nat × List Nat)) (t : Tree W) (n : Nat)
    (hnode : ∃ w d l r, t = Tree.node w d l r) (hs : t.syms.Perm (List.range n))
    (hord : ∀ d, discover t.size [(t, 0)] [] = .ok d → (ord d).Perm d) :
    (∃ h codes, buildCodeTable ord t = .ok h ∧ Codes h codes ∧ CodesOf t n codes) ∨
    buildCodeTable ord t = .error .value := by
  obtain ⟨d, hd, hp, hwf⟩ := discover_tree t
  have hperm : (order (ord d)).Perm (t.leaves 0) := (order_perm _).trans ((flat_perm (hord d hd)).trans hp)
  rcases canonAll_down (order (ord d)) { code := -1, prev := 0, table := [] }
    (fun p hp' => leaves_pos hnode p (hperm.mem_iff.1 hp')) with ⟨_, h2⟩ | h
  · left
    refine buildCodeTable_sorted ord t n hnode hs ?_
    intro d' hd'
    rw [hd] at hd'
    cases hd'
    exact ⟨hord d hd, h2⟩
  · right
    simp only [buildCodeTable, canonicalTable, bind, Except.bind, hd, canonLoop_eq, h]

/-- The bits of a text. -/
def textBits (codes : List (List Bool)) (text : List Nat) : List Bool := text.flatMap fun c => (codes[c]?).getD []

theorem codeOf_spec {h : Huffman} {codes : List (List Bool)} (hc : Codes h codes) {c : Nat} (hlt : c < codes.length) :
    codeOf h c = .ok (pack ((codes[c]?).getD []), ((codes[c]?).getD []).length) := by
  unfold codeOf
  rw [hc.table, List.getElem?_map, List.getElem?_eq_getElem hlt]
  rfl

theorem encodeToBB_spec {h : Huffman} {codes : List (List Bool)} (hc : Codes h codes) (text : List Nat)
    (ht : ∀ c ∈ text, c < codes.length) (eof : Bool) (he : eof = true → 256 < codes.length) :
    ∀ {bb : BitBucket} {bits : List Bool}, Wrote bb bits → ∃ bb', encodeToBB h bb text eof = .ok bb' ∧
      Wrote bb' (bits ++ textBits codes text ++ if eof then textBits codes [256] else []) := by
  induction text with
  | nil =>
    intro bb bits hw
    cases eof with
    | false => exact ⟨bb, rfl, by simpa [textBits] using hw⟩
    | true =>
      obtain ⟨bb', e, hw'⟩ := wrote_store hw ((codes[256]?).getD [])
      refine ⟨bb', ?_, by simpa [textBits] using hw'⟩
      simp only [encodeToBB, if_true, bind, Except.bind, codeOf_spec hc (he rfl), e]
  | cons c text ih =>
    intro bb bits hw
    obtain ⟨bb', e, hw'⟩ := wrote_store hw ((codes[c]?).getD [])
    obtain ⟨bb'', e2, hw''⟩ := ih (fun x hx => ht x (by simp [hx])) hw'
    refine ⟨bb'', ?_, by simpa [textBits] using hw''⟩
    simp only [encodeToBB, bind, Except.bind, codeOf_spec hc (ht c (by simp)), e, e2]

theorem encode_spec {h : Huffman} {codes : List (List Bool)} (hc : Codes h codes) (text : List Nat)
    (ht : ∀ c ∈ text, c < codes.length) (eof : Bool) (he : eof = true → 256 < codes.length) :
    encode h text eof = .ok (pack (textBits codes (text ++ if eof then [256] else [])),
      (textBits codes (text ++ if eof then [256] else [])).length) := by
  obtain ⟨bb, e, hw⟩ := encodeToBB_spec hc text ht eof he wrote_empty
  have hb : [] ++ textBits codes text ++ (if eof then textBits codes [256] else []) =
      textBits codes (text ++ if eof then [256] else []) := by
    cases eof <;> simp [textBits]
  rw [hb] at hw
  obtain ⟨h1, h2⟩ := wrote_out hw
  simp only [encode, bind, Except.bind, e, pure, Except.pure, h1, h2, Int.toNat_natCast]

theorem walk_spec (t : DTree) : ∀ (c : List Bool) (sym : Nat) {bb : BitBucket} {pre rest : List Bool},
    Leads t c sym → At bb pre (c ++ rest) →
    ∃ bb', walk t bb = .ok (bb', sym, c.length) ∧ At bb' (pre ++ c) rest := by
  induction t with
  | empty => intro c sym bb pre rest h; exact absurd h (leads_empty _ _)
  | leaf s =>
    intro c sym bb pre rest h ha
    cases c with
    | nil =>
      have h : s = sym := h
      subst h
      exact ⟨bb, rfl, by simpa using ha⟩
    | cons b c => exact absurd h (by intro h; exact h)
  | node l r ihl ihr =>
    intro c sym bb pre rest h ha
    cases c with
    | nil => exact absurd h (by intro h; exact h)
    | cons b c =>
      obtain ⟨b1, e1, ha1⟩ := at_bit ha
      cases b with
      | false =>
        obtain ⟨b2, e2, ha2⟩ := ihl c sym h ha1
        refine ⟨b2, ?_, by simpa using ha2⟩
        simp only [walk, bind, Except.bind, e1]
        simp [e2, Except.map]
      | true =>
        obtain ⟨b2, e2, ha2⟩ := ihr c sym h ha1
        refine ⟨b2, ?_, by simpa using ha2⟩
        simp only [walk, bind, Except.bind, e1]
        simp [e2, Except.map]

theorem codes_get {codes : List (List Bool)} {c : Nat} (h : c < codes.length) :
    codes[c]? = some ((codes[c]?).getD []) := by
  rw [List.getElem?_eq_getElem h]
  rfl

theorem textBits_cons (codes : List (List Bool)) (c : Nat) (text : List Nat) :
    textBits codes (c :: text) = (codes[c]?).getD [] ++ textBits codes text := by simp [textBits]

theorem code_pos {h : Huffman} {codes : List (List Bool)} (hc : Codes h codes) {c : Nat} (hlt : c < codes.length) :
    0 < ((codes[c]?).getD []).length := by
  rw [List.getElem?_eq_getElem hlt, Option.getD_some]
  exact List.length_pos_iff.2 (hc.nonempty _ (List.getElem_mem hlt))

/-- Decoding up to the end symbol. -/
theorem decodeLoop_eof {h : Huffman} {codes : List (List Bool)} (hc : Codes h codes) (h256 : 256 < codes.length)
    (text : List Nat) : ∀ (_ : ∀ c ∈ text, c < 256) (fuel total : Nat) (out : List Nat) {bb : BitBucket}
    {pre rest : List Bool}, At bb pre (textBits codes (text ++ [256]) ++ rest) →
    (textBits codes (text ++ [256])).length ≤ fuel →
    ∃ bb', decodeLoop h.tree true (-1) fuel bb total out =
        .ok (bb', total + (textBits codes (text ++ [256])).length, out ++ text) ∧
      At bb' (pre ++ textBits codes (text ++ [256])) rest := by
  induction text with
  | nil =>
    intro ht fuel total out bb pre rest ha hf
    have hp := code_pos hc h256
    simp only [List.nil_append, textBits_cons] at ha hf ⊢
    simp only [textBits, List.flatMap_nil, List.append_nil] at ha hf ⊢
    cases fuel with
    | zero => omega
    | succ fuel =>
      obtain ⟨bb', e, ha'⟩ := walk_spec h.tree _ 256 (hc.leads 256 _ (codes_get h256)) ha
      refine ⟨bb', ?_, ha'⟩
      rw [decodeLoop, if_pos (by omega)]
      simp only [bind, Except.bind, e]
      simp
  | cons c text ih =>
    intro ht fuel total out bb pre rest ha hf
    have hlt : c < 256 := ht c (by simp)
    have hp := code_pos hc (c := c) (by omega)
    simp only [List.cons_append, textBits_cons, List.append_assoc, List.length_append] at ha hf ⊢
    cases fuel with
    | zero => omega
    | succ fuel =>
      obtain ⟨bb1, e1, ha1⟩ := walk_spec h.tree _ c (hc.leads c _ (codes_get (by omega))) ha
      obtain ⟨bb2, e2, ha2⟩ := ih (fun x hx => ht x (by simp [hx])) fuel
        (total + ((codes[c]?).getD []).length) (out ++ [c]) ha1 (by omega)
      refine ⟨bb2, ?_, by simpa [List.append_assoc] using ha2⟩
      rw [decodeLoop, if_pos (by omega)]
      simp only [bind, Except.bind, e1]
      rw [if_neg (by intro h; omega), e2]
      simp [Nat.add_assoc]

/-- Decoding a given number of bits, without end symbol. -/
theorem decodeLoop_bits {h : Huffman} {codes : List (List Bool)} (hc : Codes h codes) (text : List Nat) :
    ∀ (_ : ∀ c ∈ text, c < codes.length) (fuel total : Nat) (out : List Nat) {bb : BitBucket}
    {pre rest : List Bool}, At bb pre (textBits codes text ++ rest) →
    (textBits codes text).length ≤ fuel →
    ∃ bb', decodeLoop h.tree false ((total + (textBits codes text).length : Nat) : Int) fuel bb total out =
        .ok (bb', total + (textBits codes text).length, out ++ text) ∧
      At bb' (pre ++ textBits codes text) rest := by
  induction text with
  | nil =>
    intro ht fuel total out bb pre rest ha hf
    simp only [textBits, List.flatMap_nil, List.nil_append, List.length_nil, Nat.add_zero, List.append_nil] at ha ⊢
    refine ⟨bb, ?_, ha⟩
    cases fuel <;> rw [decodeLoop, if_neg (by omega)]
  | cons c text ih =>
    intro ht fuel total out bb pre rest ha hf
    have hlt : c < codes.length := ht c (by simp)
    have hp := code_pos hc hlt
    simp only [textBits_cons, List.append_assoc, List.length_append] at ha hf ⊢
    cases fuel with
    | zero => omega
    | succ fuel =>
      obtain ⟨bb1, e1, ha1⟩ := walk_spec h.tree _ c (hc.leads c _ (codes_get hlt)) ha
      obtain ⟨bb2, e2, ha2⟩ := ih (fun x hx => ht x (by simp [hx])) fuel
        (total + ((codes[c]?).getD []).length) (out ++ [c]) ha1 (by omega)
      refine ⟨bb2, ?_, by simpa [List.append_assoc] using ha2⟩
      rw [decodeLoop, if_pos (by right; omega)]
      simp only [bind, Except.bind, e1]
      rw [if_neg (by simp)]
      rw [Nat.add_assoc] at e2
      rw [e2]
      simp

theorem decode_eof {h : Huffman} {codes : List (List Bool)} (hc : Codes h codes) (h256 : 256 < codes.length)
    (text : List Nat) (ht : ∀ c ∈ text, c < 256) {bb : BitBucket} {pre rest : List Bool}
    (ha : At bb pre (textBits codes (text ++ [256]) ++ rest)) :
    ∃ bb', decodeFromBB h bb true 0 = .ok (bb', text) ∧ At bb' (pre ++ textBits codes (text ++ [256])) rest := by
  have hl := ha.bits.length
  simp only [List.length_append] at hl
  obtain ⟨bb', e, ha'⟩ := decodeLoop_eof hc h256 text ht (8 * bb.output.length + 1) 0 [] ha (by omega)
  refine ⟨bb', ?_, ha'⟩
  simp only [decodeFromBB, bind, Except.bind]
  rw [if_neg (by simp)]
  simp only [le_refl, if_true, e]
  simp [pure, Except.pure]

theorem decode_bits {h : Huffman} {codes : List (List Bool)} (hc : Codes h codes) (text : List Nat) (hne : text ≠ [])
    (ht : ∀ c ∈ text, c < codes.length) {bb : BitBucket} {pre rest : List Bool}
    (ha : At bb pre (textBits codes text ++ rest)) :
    ∃ bb', decodeFromBB h bb false (textBits codes text).length = .ok (bb', text) ∧
      At bb' (pre ++ textBits codes text) rest := by
  have hl := ha.bits.length
  simp only [List.length_append] at hl
  have hpos : 0 < (textBits codes text).length := by
    cases text with
    | nil => exact absurd rfl hne
    | cons c text =>
      rw [textBits_cons, List.length_append]
      have := code_pos hc (ht c (by simp))
      omega
  obtain ⟨bb', e, ha'⟩ := decodeLoop_bits hc text ht (8 * bb.output.length + 1) 0 [] ha (by omega)
  rw [Nat.zero_add] at e
  refine ⟨bb', ?_, ha'⟩
  simp only [decodeFromBB, bind, Except.bind]
  rw [if_neg (by rintro ⟨_, h⟩; omega), if_neg (by omega)]
  simp only [e]
  rw [if_neg (by omega)]
  simp [pure, Except.pure]

end Verif.Huff
