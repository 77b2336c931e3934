import Verif.Delta1.Codec
import Verif.Delta2.CodecSets
/-
What the operations on the storage of delta keep true.
-/
namespace Verif.Delta1
open Verif Verif.Delta2

/-! ### Sets of groups and of indices -/

theorem groupsOf_snoc (hist : List GEvent) (ev : GEvent) : groupsOf (hist ++ [ev]) = groupStep (groupsOf hist) ev := by
  simp [groupsOf]

theorem groupsOf_renumbered (hist : List GEvent) (g : Nat) : groupsOf (hist ++ [.clear, .add g]) = [g] := by
  simp [groupsOf, groupStep, addSet]

theorem nodup_groupsOf (hist : List GEvent) : (groupsOf hist).Nodup := by
  induction hist using List.reverseRecOn with
  | nil => exact List.nodup_nil
  | append_singleton hist ev ih =>
    rw [groupsOf_snoc]
    cases ev with
    | add g => exact nodup_addSet ih
    | remove g => exact ih.filter _
    | clear => exact List.nodup_nil

theorem mem_insertAsc {i y : Nat} {l : List Nat} : y ∈ insertAsc i l ↔ y ∈ l ∨ y = i := by
  induction l with
  | nil => simp [insertAsc]
  | cons x xs ih =>
    unfold insertAsc
    split
    · simp only [List.mem_cons]; tauto
    · split
      · rename_i h; subst h; simp only [List.mem_cons]; tauto
      · simp only [List.mem_cons, ih]; tauto

theorem asc_insertAsc {i : Nat} {l : List Nat} (h : l.Pairwise (· < ·)) : (insertAsc i l).Pairwise (· < ·) := by
  induction l with
  | nil => simp [insertAsc]
  | cons x xs ih =>
    rw [List.pairwise_cons] at h
    unfold insertAsc
    split
    · rename_i hx
      refine List.pairwise_cons.2 ⟨fun y hy => ?_, List.pairwise_cons.2 h⟩
      rcases List.mem_cons.1 hy with rfl | hy
      · exact hx
      · exact Nat.lt_trans hx (h.1 y hy)
    · split
      · exact List.pairwise_cons.2 h
      · refine List.pairwise_cons.2 ⟨fun y hy => ?_, ih h.2⟩
        rcases mem_insertAsc.1 hy with hy | rfl
        · exact h.1 y hy
        · omega

theorem mem_removeAsc {i y : Nat} {l : List Nat} : y ∈ removeAsc l i ↔ y ∈ l ∧ y ≠ i := by
  simp [removeAsc]

theorem asc_removeAsc {i : Nat} {l : List Nat} (h : l.Pairwise (· < ·)) : (removeAsc l i).Pairwise (· < ·) :=
  h.filter _

theorem mem_toggleAsc {i y : Nat} {l : List Nat} :
    y ∈ toggleAsc l i ↔ (y ∈ l ∧ y ≠ i) ∨ (y ∉ l ∧ y = i) := by
  unfold toggleAsc
  split
  · rename_i h
    simp only [List.mem_filter, decide_eq_true_eq]
    constructor
    · exact .inl
    · rintro (h' | ⟨h1, rfl⟩)
      · exact h'
      · exact absurd h h1
  · rename_i h
    rw [mem_insertAsc]
    constructor
    · rintro (h' | rfl)
      · exact .inl ⟨h', fun e => h (e ▸ h')⟩
      · exact .inr ⟨h, rfl⟩
    · rintro (⟨h', _⟩ | ⟨_, rfl⟩)
      · exact .inl h'
      · exact .inr rfl

theorem asc_toggleAsc {i : Nat} {l : List Nat} (h : l.Pairwise (· < ·)) : (toggleAsc l i).Pairwise (· < ·) := by
  unfold toggleAsc
  split
  · exact h.filter _
  · exact asc_insertAsc h

theorem asc_nodup {l : List Nat} (h : l.Pairwise (· < ·)) : l.Nodup := h.imp (fun h => Nat.ne_of_lt h)

theorem asc_eq {a b : List Nat} (ha : a.Pairwise (· < ·)) (hb : b.Pairwise (· < ·)) (h : ∀ x, x ∈ a ↔ x ∈ b) : a = b :=
  List.Perm.eq_of_pairwise (fun _ _ _ _ h1 h2 => absurd h1 (Nat.lt_asymm h2)) ha hb
    ((List.perm_ext_iff_of_nodup (asc_nodup ha) (asc_nodup hb)).2 h)

theorem insertAsc_length (i : Nat) (l : List Nat) : (insertAsc i l).length ≤ l.length + 1 := by
  induction l with
  | nil => simp [insertAsc]
  | cons x xs ih =>
    unfold insertAsc
    split
    · simp
    · split
      · simp
      · simp only [List.length_cons]; omega

theorem removeAsc_length {i : Nat} {l : List Nat} (h : i ∈ l) : (removeAsc l i).length + 1 ≤ l.length := by
  unfold removeAsc
  have := List.length_filter_lt_length_iff_exists (l := l) (p := fun x => decide (x ≠ i))
  have := this.2 ⟨i, h, by simp⟩
  omega

theorem toggleAsc_length (l : List Nat) (i : Nat) : (toggleAsc l i).length ≤ l.length + 1 := by
  unfold toggleAsc
  split
  · exact Nat.le_trans (List.length_filter_le _ _) (Nat.le_succ _)
  · exact insertAsc_length i l

/-! ### Ids -/

theorem getNext_lt {s : IdSt} (h : s.minId < s.maxId) : (getNext s).2 < s.maxId := by
  simp only [getNext]
  split
  · exact h
  · rename_i hn
    by_contra hc
    exact hn ⟨by omega, by omega⟩

theorem getNext_ids (s : IdSt) : (getNext s).1.minId = s.minId ∧ (getNext s).1.maxId = s.maxId := ⟨rfl, rfl⟩

theorem unusedLoop_spec (used : Nat → Bool) (first fuel : Nat) : ∀ (s : IdSt) (idx : Nat) (s' : IdSt) (i : Nat),
    s.minId < s.maxId → idx < s.maxId → unusedLoop used first fuel s idx = .ok (s', i) →
    i < s.maxId ∧ used i = false ∧ s'.minId = s.minId ∧ s'.maxId = s.maxId := by
  induction fuel with
  | zero => intro s idx s' i _ _ h; simp [unusedLoop] at h
  | succ fuel ih =>
    intro s idx s' i hm hi h
    unfold unusedLoop at h
    split at h
    · dsimp only at h
      split at h
      · cases h
      · have := ih (getNext s).1 (getNext s).2 s' i hm (getNext_lt hm) h
        exact this
    · rename_i hu
      simp only [Except.ok.injEq, Prod.mk.injEq] at h
      obtain ⟨rfl, rfl⟩ := h
      exact ⟨hi, by simpa using hu, rfl, rfl⟩

theorem nextUnused_spec {used : Nat → Bool} {s s' : IdSt} {i : Nat} (hm : s.minId < s.maxId)
    (h : nextUnused used s = .ok (s', i)) :
    i < s.maxId ∧ used i = false ∧ s'.minId = s.minId ∧ s'.maxId = s.maxId :=
  unusedLoop_spec used _ _ (getNext s).1 (getNext s).2 s' i hm (getNext_lt hm) h

/-! ### The invariant -/

/-- What is true of a codec between any two steps. -/
structure Inv (c : Codec) : Prop where
  nd : (c.store.lru.map (·.idx)).Nodup
  ns : ∀ ve ∈ c.store.lru, ve.idx ∉ c.store.statics
  lt : ∀ ve ∈ c.store.lru, ve.idx < 2 ^ 16
  asc : ∀ g hg, c.groups.get? g = some hg → hg.Pairwise (· < ·)
  mem : ∀ g hg, c.groups.get? g = some hg → ∀ i ∈ hg, ∃ ve ∈ c.store.lru, ve.idx = i
  hist : ∀ ve ∈ c.store.lru, ∀ g, g ∈ groupsOf ve.hist ↔ ∃ hg, c.groups.get? g = some hg ∧ ve.idx ∈ hg
  key : ∀ k ke, c.store.keyMap.get? k = some ke → k ≠ c.store.staticKey →
    ke.idx < 2 ^ 16 ∧ c.store.keyIdx.get? ke.idx = some k
  has : ∀ ve ∈ c.store.lru, c.store.keyMap.has ve.key = true
  kids : c.store.keyIds.maxId = 2 ^ 16 ∧ c.store.keyIds.minId < 2 ^ 16
  lids : c.store.lruIds.maxId = 2 ^ 16 ∧ c.store.lruIds.minId < 2 ^ 16
  cnt : c.store.numVals = c.store.lru.length

/-- What never changes. -/
def Same (c c' : Codec) : Prop :=
  c'.store.staticKey = c.store.staticKey ∧ c'.store.statics = c.store.statics ∧ c'.store.maxVals = c.store.maxVals ∧
    c'.store.maxSize = c.store.maxSize

theorem Same.refl (c : Codec) : Same c c := ⟨rfl, rfl, rfl, rfl⟩

theorem Same.trans {a b c : Codec} (h1 : Same a b) (h2 : Same b c) : Same a c :=
  ⟨h2.1.trans h1.1, h2.2.1.trans h1.2.1, h2.2.2.1.trans h1.2.2.1, h2.2.2.2.trans h1.2.2.2⟩

/-- No key is forgotten. -/
def KeysKept (c c' : Codec) : Prop := ∀ k, c.store.keyMap.has k = true → c'.store.keyMap.has k = true

/-- The number of entries of a group. -/
def glen (c : Codec) (g : Nat) : Nat := ((c.groups.get? g).getD []).length

/-- No group has more entries. -/
def Less (c c' : Codec) : Prop := ∀ g, glen c' g ≤ glen c g

theorem Less.refl (c : Codec) : Less c c := fun _ => Nat.le_refl _

theorem Less.trans {a b c : Codec} (h1 : Less a b) (h2 : Less b c) : Less a c := fun g => Nat.le_trans (h2 g) (h1 g)

theorem find_idx {l : List VE} (hnd : (l.map (·.idx)).Nodup) {ve : VE} (hm : ve ∈ l) :
    l.find? (·.idx = ve.idx) = some ve := by
  induction l with
  | nil => cases hm
  | cons x xs ih =>
    rw [List.map_cons, List.nodup_cons] at hnd
    rcases List.mem_cons.1 hm with rfl | hm
    · simp
    · have hne : x.idx ≠ ve.idx := fun e => hnd.1 (e ▸ List.mem_map_of_mem hm)
      rw [List.find?_cons]
      simp only [hne, decide_false]
      exact ih hnd.2 hm

theorem lookup_ok {c : Codec} (hi : Inv c) {ve : VE} (hm : ve ∈ c.store.lru) : lookup c.store ve.idx = .ok ve := by
  simp only [lookup, find_idx hi.nd hm]

theorem lookup_mem {s : Store} {i : Nat} {ve : VE} (h : lookup s i = .ok ve) : ve ∈ s.lru ∧ ve.idx = i := by
  unfold lookup at h
  split at h
  · rename_i v hv
    cases h
    exact ⟨List.mem_of_find?_eq_some hv, by simpa using List.find?_some hv⟩
  · split at h <;> cases h

theorem idx_inj {c : Codec} (hi : Inv c) {a b : VE} (ha : a ∈ c.store.lru) (hb : b ∈ c.store.lru) (h : a.idx = b.idx) :
    a = b := by
  have h1 := find_idx hi.nd ha
  rw [h, find_idx hi.nd hb] at h1
  exact (Option.some.inj h1).symm

theorem used_false {s : Store} {i : Nat} (h : s.used i = false) : i ∉ s.statics ∧ ∀ ve ∈ s.lru, ve.idx ≠ i := by
  simp only [Store.used, Bool.or_eq_false_iff, decide_eq_false_iff_not, List.any_eq_false, decide_eq_true_eq] at h
  exact ⟨h.1, fun ve hv => h.2 ve hv⟩

/-! ### Steps -/

theorem group_ok {groups : Dict Nat (List Nat)} {g : Nat} {hg : List Nat} : group groups g = .ok hg ↔ groups.get? g = some hg := by
  unfold group
  cases groups.get? g <;> simp

theorem removeFrom_spec (i : Nat) (gs : List Nat) : gs.Nodup → ∀ {groups groups' : Dict Nat (List Nat)},
    removeFrom i gs groups = .ok groups' →
    ∀ g, groups'.get? g = if g ∈ gs then (groups.get? g).map (removeAsc · i) else groups.get? g := by
  induction gs with
  | nil => intro _ groups groups' h g; cases h; simp
  | cons x xs ih =>
    intro hnd groups groups' h g
    rw [List.nodup_cons] at hnd
    simp only [removeFrom, bind, Except.bind] at h
    split at h
    · cases h
    · rename_i hg hhg
      rw [group_ok] at hhg
      rw [ih hnd.2 h g]
      by_cases hx : x = g
      · subst hx
        rw [if_neg hnd.1, if_pos (by simp), Dict.get?_set, if_pos rfl, hhg]
        rfl
      · rw [Dict.get?_set, if_neg hx]
        by_cases hgx : g ∈ xs
        · rw [if_pos hgx, if_pos (by simp [hgx])]
        · rw [if_neg hgx, if_neg (by simp only [List.mem_cons, not_or]; exact ⟨fun e => hx e.symm, hgx⟩)]

theorem removeFrom_total (i : Nat) (gs : List Nat) : ∀ {groups : Dict Nat (List Nat)},
    (∀ g ∈ gs, ∃ hg, groups.get? g = some hg) → ∃ groups', removeFrom i gs groups = .ok groups' := by
  induction gs with
  | nil => intro groups _; exact ⟨groups, rfl⟩
  | cons x xs ih =>
    intro groups h
    obtain ⟨hg, hx⟩ := h x (by simp)
    obtain ⟨groups', h'⟩ := ih (groups := groups.set x (removeAsc hg i)) (fun g hgm => by
      rw [Dict.get?_set]
      split
      · exact ⟨_, rfl⟩
      · exact h g (by simp [hgm]))
    exact ⟨groups', by simp only [removeFrom, bind, Except.bind, group_ok.2 hx, h']⟩

theorem removeVal_fields (s : Store) (ve : VE) (rest : List VE) :
    (removeVal s ve rest).lru = rest ∧ (removeVal s ve rest).keyMap = s.keyMap ∧ (removeVal s ve rest).keyIdx = s.keyIdx ∧
    (removeVal s ve rest).keyIds = s.keyIds ∧ (removeVal s ve rest).lruIds = s.lruIds ∧
    (removeVal s ve rest).numVals = s.numVals - 1 ∧ (removeVal s ve rest).statics = s.statics ∧
    (removeVal s ve rest).staticKey = s.staticKey ∧ (removeVal s ve rest).maxVals = s.maxVals ∧
    (removeVal s ve rest).maxSize = s.maxSize := by
  unfold removeVal
  dsimp only
  split <;> simp

theorem popOne_spec {c c' : Codec} (hi : Inv c) (h : popOne c = .ok (some c')) :
    Inv c' ∧ Same c c' ∧ KeysKept c c' ∧ c'.store.lru = c.store.lru.tail ∧ c.store.lru ≠ [] ∧ Less c c' := by
  unfold popOne at h
  split at h
  · cases h
  · rename_i ve rest hl
    simp only [bind, Except.bind] at h
    split at h
    · cases h
    · rename_i groups hr
      simp only [pure, Except.pure, Except.ok.injEq, Option.some.injEq] at h
      subst h
      obtain ⟨f1, f2, f3, f4, f5, f6, f7, f8, f9, f10⟩ := removeVal_fields c.store ve rest
      have hg := removeFrom_spec ve.idx _ (nodup_groupsOf ve.hist) hr
      have hve : ve ∈ c.store.lru := by rw [hl]; simp
      have hrest : ∀ w ∈ rest, w ∈ c.store.lru := fun w hw => by rw [hl]; simp [hw]
      have hnd := hi.nd
      rw [hl, List.map_cons, List.nodup_cons] at hnd
      have hne : ∀ w ∈ rest, w.idx ≠ ve.idx := fun w hw e => hnd.1 (e ▸ List.mem_map_of_mem hw)
      -- what the groups are
      have hget : ∀ g hg', groups.get? g = some hg' → ∃ hg0, c.groups.get? g = some hg0 ∧
          (∀ y, y ∈ hg' ↔ y ∈ hg0 ∧ y ≠ ve.idx) ∧ hg'.Pairwise (· < ·) := by
        intro g hg' h'
        rw [hg g] at h'
        split at h'
        · rw [Option.map_eq_some_iff] at h'
          obtain ⟨hg0, h0, rfl⟩ := h'
          exact ⟨hg0, h0, fun y => mem_removeAsc, asc_removeAsc (hi.asc g hg0 h0)⟩
        · rename_i hgm
          refine ⟨hg', h', fun y => ⟨fun hy => ⟨hy, ?_⟩, fun hy => hy.1⟩, hi.asc g hg' h'⟩
          rintro rfl
          exact hgm ((hi.hist ve hve g).2 ⟨hg', h', hy⟩)
      have hget' : ∀ g hg0, c.groups.get? g = some hg0 → ∃ hg', groups.get? g = some hg' := by
        intro g hg0 h0
        rw [hg g, h0]
        split <;> exact ⟨_, rfl⟩
      refine ⟨⟨?_, ?_, ?_, ?_, ?_, ?_, ?_, ?_, ?_, ?_, ?_⟩, ⟨f8, f7, f9, f10⟩, ?_, ?_, ?_, fun g => ?_⟩
      · rw [f1]; exact hnd.2
      · rw [f1, f7]; exact fun w hw => hi.ns w (hrest w hw)
      · rw [f1]; exact fun w hw => hi.lt w (hrest w hw)
      · intro g hg' h'
        exact (hget g hg' h').choose_spec.2.2
      · intro g hg' h' i him
        obtain ⟨hg0, h0, hm, -⟩ := hget g hg' h'
        obtain ⟨hi0, hine⟩ := (hm i).1 him
        obtain ⟨w, hw, rfl⟩ := hi.mem g hg0 h0 i hi0
        rw [hl] at hw
        rcases List.mem_cons.1 hw with rfl | hw
        · exact absurd rfl hine
        · exact ⟨w, by rw [f1]; exact hw, rfl⟩
      · intro w hw g
        rw [f1] at hw
        rw [hi.hist w (hrest w hw) g]
        constructor
        · rintro ⟨hg0, h0, hm⟩
          obtain ⟨hg', h'⟩ := hget' g hg0 h0
          obtain ⟨hg1, h1, hm1, -⟩ := hget g hg' h'
          rw [h0] at h1
          cases h1
          exact ⟨hg', h', (hm1 _).2 ⟨hm, hne w hw⟩⟩
        · rintro ⟨hg', h', hm⟩
          obtain ⟨hg1, h1, hm1, -⟩ := hget g hg' h'
          exact ⟨hg1, h1, ((hm1 _).1 hm).1⟩
      · intro k ke hk hs
        rw [f2] at hk
        rw [f8] at hs
        rw [f3]
        exact hi.key k ke hk hs
      · rw [f1, f2]; exact fun w hw => hi.has w (hrest w hw)
      · rw [f4]; exact hi.kids
      · rw [f5]; exact hi.lids
      · rw [f6, f1, hi.cnt, hl]; simp
      · intro k hk
        show (removeVal c.store ve rest).keyMap.has k = true
        rw [f2]; exact hk
      · show (removeVal c.store ve rest).lru = c.store.lru.tail
        rw [f1, hl]; rfl
      · rw [hl]; simp
      · simp only [glen]
        rw [hg g]
        cases c.groups.get? g with
        | none => simp
        | some hg0 =>
          split
          · exact List.length_filter_le _ _
          · exact Nat.le_refl _

theorem popLoop_spec (adding : Int) (fuel : Nat) : ∀ {c c' : Codec} {r : Bool}, Inv c → popLoop adding fuel c = .ok (c', r) →
    Inv c' ∧ Same c c' ∧ KeysKept c c' ∧ (∃ n, c'.store.lru = c.store.lru.drop n) ∧
      (r = true → c'.store.lru = []) ∧ (r = false → c'.store.numVals + adding ≤ c'.store.maxVals) ∧ Less c c' := by
  induction fuel with
  | zero => intro c c' r _ h; simp [popLoop] at h
  | succ fuel ih =>
    intro c c' r hi h
    unfold popLoop at h
    split at h
    · simp only [bind, Except.bind] at h
      split at h
      · cases h
      · rename_i v hv
        split at h
        · simp only [pure, Except.pure, Except.ok.injEq, Prod.mk.injEq] at h
          obtain ⟨rfl, rfl⟩ := h
          refine ⟨hi, Same.refl c, fun _ h => h, ⟨0, rfl⟩, fun _ => ?_, by simp, Less.refl c⟩
          unfold popOne at hv
          split at hv
          · assumption
          · simp only [bind, Except.bind, pure, Except.pure] at hv
            split at hv <;> cases hv
        · rename_i c1 hv'
          obtain ⟨h1, h2, h3, h4, -, h6⟩ := popOne_spec hi hv
          obtain ⟨i1, i2, i3, ⟨n, i4⟩, i5, i6, i7⟩ := ih h1 h
          refine ⟨i1, h2.trans i2, fun k hk => i3 k (h3 k hk), ⟨n + 1, ?_⟩, i5, i6, h6.trans i7⟩
          rw [i4, h4, ← List.drop_one, List.drop_drop, Nat.add_comm]
    · rename_i hn
      simp only [Except.ok.injEq, Prod.mk.injEq] at h
      obtain ⟨rfl, rfl⟩ := h
      exact ⟨hi, Same.refl c, fun _ h => h, ⟨0, rfl⟩, by simp, fun _ => by omega, Less.refl c⟩

theorem makeSpace_spec {c c' : Codec} {space : Nat} {adding : Int} (hi : Inv c) (h : makeSpace c space adding = .ok c') :
    Inv c' ∧ Same c c' ∧ KeysKept c c' ∧ (∃ n, c'.store.lru = c.store.lru.drop n) ∧
      (c'.store.lru = [] ∨ c'.store.numVals + adding ≤ c'.store.maxVals) ∧ Less c c' := by
  simp only [makeSpace, bind, Except.bind] at h
  split at h
  · cases h
  · rename_i v hv
    obtain ⟨c1, r⟩ := v
    obtain ⟨i1, i2, i3, i4, i5, i6, i7⟩ := popLoop_spec adding _ hi hv
    dsimp only at h
    split at h
    · rename_i hr
      simp only [pure, Except.pure, Except.ok.injEq] at h
      subst h
      exact ⟨i1, i2, i3, i4, .inl (i5 hr), i7⟩
    · rename_i hr
      split at h
      · cases h
      · simp only [pure, Except.pure, Except.ok.injEq] at h
        subst h
        exact ⟨i1, i2, i3, i4, .inr (i6 (by simpa using hr)), i7⟩

/-- Changes that keep the entries, groups and ids, and forget no key. -/
theorem Inv.congr {c c' : Codec} (hi : Inv c) (hl : c'.store.lru = c.store.lru) (hs : c'.store.statics = c.store.statics)
    (hg : c'.groups = c.groups) (hk : ∀ k ke, c'.store.keyMap.get? k = some ke → k ≠ c'.store.staticKey →
      ke.idx < 2 ^ 16 ∧ c'.store.keyIdx.get? ke.idx = some k)
    (hh : KeysKept c c') (h1 : c'.store.keyIds.maxId = 2 ^ 16 ∧ c'.store.keyIds.minId < 2 ^ 16)
    (h2 : c'.store.lruIds.maxId = 2 ^ 16 ∧ c'.store.lruIds.minId < 2 ^ 16)
    (h3 : c'.store.numVals = c'.store.lru.length) : Inv c' := by
  refine ⟨?_, ?_, ?_, ?_, ?_, ?_, hk, ?_, h1, h2, h3⟩
  · rw [hl]; exact hi.nd
  · rw [hl, hs]; exact hi.ns
  · rw [hl]; exact hi.lt
  · rw [hg]; exact hi.asc
  · rw [hl, hg]; exact hi.mem
  · rw [hl, hg]; exact hi.hist
  · rw [hl]; exact fun ve hve => hh _ (hi.has ve hve)

theorem has_iff {α β : Type} [DecidableEq α] {d : Dict α β} {k : α} : d.has k = true ↔ ∃ v, d.get? k = some v := by
  simp [Dict.has, Option.isSome_iff_exists]

theorem has_set {α β : Type} [DecidableEq α] {d : Dict α β} {k x : α} {v : β} (h : d.has x = true) :
    (d.set k v).has x = true := by
  simp only [Dict.has, Dict.get?_set]
  split
  · rfl
  · exact h

theorem findOrAddKey_spec {c c' : Codec} {key : Str} (hi : Inv c) (h : findOrAddKey c key = .ok c') :
    Inv c' ∧ Same c c' ∧ KeysKept c c' ∧ c'.store.keyMap.has key = true ∧ (∃ n, c'.store.lru = c.store.lru.drop n) ∧
      Less c c' := by
  unfold findOrAddKey at h
  split at h
  · rename_i hk
    cases h
    exact ⟨hi, Same.refl c, fun _ h => h, hk, ⟨0, rfl⟩, Less.refl c⟩
  · simp only [bind, Except.bind] at h
    split at h
    · cases h
    · rename_i c1 h1
      obtain ⟨i1, i2, i3, i4, -, i6⟩ := makeSpace_spec hi h1
      simp only [newKE, bind, Except.bind] at h
      split at h
      · cases h
      · rename_i v hv
        split at hv
        · cases hv
        · rename_i w hw
          simp only [pure, Except.pure, Except.ok.injEq] at hv
          subst hv
          obtain ⟨ids, i⟩ := w
          obtain ⟨j1, j2, j3, j4⟩ := nextUnused_spec (by rw [i1.kids.1]; exact i1.kids.2) hw
          rw [i1.kids.1] at j1 j4
          dsimp only at h
          split at h
          · cases h
          · simp only [pure, Except.pure, Except.ok.injEq] at h
            subst h
            have hkept : KeysKept c1 { c1 with store := { c1.store with
                keyIds := ids, keyMap := c1.store.keyMap.set key { idx := i }, keyIdx := c1.store.keyIdx.set i key,
                stateSize := c1.store.stateSize + key.length } } := fun k hk => has_set hk
            refine ⟨i1.congr rfl rfl rfl ?_ hkept ⟨j4, by rw [j3]; exact i1.kids.2⟩ i1.lids i1.cnt, i2,
              fun k hk => hkept k (i3 k hk), ?_, i4, i6⟩
            · intro k ke hk hs
              dsimp only at hk hs ⊢
              rw [Dict.get?_set] at hk
              split at hk
              · rename_i hkk
                cases hk
                subst hkk
                exact ⟨j1, by rw [Dict.get?_set, if_pos rfl]⟩
              · obtain ⟨k1, k2⟩ := i1.key k ke hk hs
                refine ⟨k1, ?_⟩
                rw [Dict.get?_set, if_neg]
                · exact k2
                · rintro rfl
                  simp [Dict.has, k2] at j2
            · simp [Dict.has, Dict.get?_set]

theorem refCnt_fields (s : Store) (key : Str) (n : Int) :
    (refCnt s key n).lru = s.lru ∧ (refCnt s key n).statics = s.statics ∧ (refCnt s key n).staticKey = s.staticKey ∧
    (refCnt s key n).keyIdx = s.keyIdx ∧ (refCnt s key n).keyIds = s.keyIds ∧ (refCnt s key n).lruIds = s.lruIds ∧
    (refCnt s key n).numVals = s.numVals ∧ (refCnt s key n).maxVals = s.maxVals ∧
    (refCnt s key n).maxSize = s.maxSize ∧ (refCnt s key n).stateSize = s.stateSize ∧
    (∀ k ke, (refCnt s key n).keyMap.get? k = some ke → ∃ ke', s.keyMap.get? k = some ke' ∧ ke'.idx = ke.idx) ∧
    (∀ k, s.keyMap.has k = true → (refCnt s key n).keyMap.has k = true) := by
  unfold refCnt
  split
  · rename_i ke hk
    refine ⟨rfl, rfl, rfl, rfl, rfl, rfl, rfl, rfl, rfl, rfl, ?_, fun k h => has_set h⟩
    intro k ke' h
    dsimp only at h
    rw [Dict.get?_set] at h
    split at h
    · rename_i hkk
      cases h
      subst hkk
      exact ⟨ke, hk, rfl⟩
    · exact ⟨ke', h, rfl⟩
  · exact ⟨rfl, rfl, rfl, rfl, rfl, rfl, rfl, rfl, rfl, rfl, fun k ke h => ⟨ke, h, rfl⟩, fun _ h => h⟩

theorem refCnt_inv {c : Codec} (hi : Inv c) (key : Str) (n : Int) :
    Inv { c with store := refCnt c.store key n } ∧ Same c { c with store := refCnt c.store key n } ∧
      KeysKept c { c with store := refCnt c.store key n } := by
  obtain ⟨f1, f2, f3, f4, f5, f6, f7, f8, f9, f10, f11, f12⟩ := refCnt_fields c.store key n
  refine ⟨hi.congr f1 f2 rfl ?_ f12 ?_ ?_ ?_, ⟨f3, f2, f8, f9⟩, f12⟩
  · intro k ke hk hs
    dsimp only at hk hs ⊢
    obtain ⟨ke', h1, h2⟩ := f11 k ke hk
    rw [f3] at hs
    rw [f4, ← h2]
    exact hi.key k ke' h1 hs
  · dsimp only; rw [f5]; exact hi.kids
  · dsimp only; rw [f6]; exact hi.lids
  · dsimp only; rw [f7, f1]; exact hi.cnt

/-- The invariant while `numVals` is one too large: between InsertVal and AddToHeadOfLRU. -/
structure Inv' (c : Codec) : Prop where
  inv : Inv { c with store := { c.store with numVals := c.store.numVals - 1 } }

theorem insertVal_spec {c c' : Codec} {key val : Str} {new : Bool} (hi : Inv c) (h : insertVal c key val = .ok (c', new)) :
    Same c c' ∧ KeysKept c c' ∧ c'.store.keyMap.has key = true ∧ (∃ n, c'.store.lru = c.store.lru.drop n) ∧ Less c c' ∧
      (new = false → Inv c') ∧
      (new = true → Inv' c' ∧ (c'.store.lru = [] ∨ c'.store.numVals ≤ c'.store.maxVals)) := by
  simp only [insertVal, bind, Except.bind] at h
  split at h
  · cases h
  · rename_i c1 h1
    obtain ⟨i1, i2, i3, i4, ⟨n, i5⟩, i6⟩ := findOrAddKey_spec hi h1
    split at h
    · simp only [pure, Except.pure, Except.ok.injEq, Prod.mk.injEq] at h
      obtain ⟨rfl, rfl⟩ := h
      exact ⟨i2, i3, i4, ⟨n, i5⟩, i6, fun _ => i1, by simp⟩
    · obtain ⟨r1, r2, r3⟩ := refCnt_inv i1 key 1
      split at h
      · cases h
      · rename_i c2 h2
        obtain ⟨j1, j2, j3, ⟨m, j4⟩, j5, j6⟩ := makeSpace_spec r1 h2
        simp only [pure, Except.pure, Except.ok.injEq, Prod.mk.injEq] at h
        obtain ⟨rfl, rfl⟩ := h
        obtain ⟨f1, f2, f3, f4, f5, f6, f7, f8, f9, f10, f11, f12⟩ :=
          refCnt_fields { c2.store with numVals := c2.store.numVals + 1 } key (-1)
        have hkept : KeysKept c1 c2 := fun k hk => j3 k (r3 k hk)
        refine ⟨i2.trans (r2.trans (j2.trans ⟨f3, f2, f8, f9⟩)), fun k hk => f12 k (hkept k (i3 k hk)),
          f12 key (hkept key i4), ⟨n + m, ?_⟩, i6.trans j6, by simp, fun _ => ⟨⟨?_⟩, ?_⟩⟩
        · dsimp only
          rw [f1]
          show c2.store.lru = _
          rw [j4]
          show (refCnt c1.store key 1).lru.drop m = _
          rw [(refCnt_fields c1.store key 1).1, i5, List.drop_drop]
        · refine j1.congr f1 f2 rfl ?_ f12 ?_ ?_ ?_
          · intro k ke hk hs
            dsimp only at hk hs ⊢
            obtain ⟨ke', h1, h2⟩ := f11 k ke hk
            rw [f3] at hs
            rw [f4, ← h2]
            exact j1.key k ke' h1 hs
          · dsimp only; rw [f5]; exact j1.kids
          · dsimp only; rw [f6]; exact j1.lids
          · dsimp only
            rw [f7, f1]
            show c2.store.numVals + 1 - 1 = _
            rw [j1.cnt]
            simp
        · dsimp only
          rw [f1, f7, f8]
          exact j5

theorem addToHead_spec {c c' : Codec} {key val : Str} {i : Nat} (hi : Inv' c) (hk : c.store.keyMap.has key = true)
    (h : addToHead c key val = .ok (c', i)) :
    Inv c' ∧ Same c c' ∧ KeysKept c c' ∧ c'.store.lru = c.store.lru ++ [{ idx := i, key := key, val := val }] ∧
      c'.groups = c.groups ∧ c'.store.numVals = c.store.numVals := by
  simp only [addToHead, bind, Except.bind] at h
  split at h
  · cases h
  · rename_i v hv
    obtain ⟨ids, j⟩ := v
    simp only [pure, Except.pure, Except.ok.injEq, Prod.mk.injEq] at h
    obtain ⟨rfl, rfl⟩ := h
    have hi := hi.inv
    obtain ⟨j1, j2, j3, j4⟩ := nextUnused_spec (by rw [hi.lids.1]; exact hi.lids.2) hv
    have hmax := hi.lids.1
    dsimp only at hmax
    rw [hmax] at j1 j4
    obtain ⟨u1, u2⟩ := used_false j2
    have hng : ∀ g hg, c.groups.get? g = some hg → j ∉ hg := by
      intro g hg hgg hj
      obtain ⟨ve, hve, rfl⟩ := hi.mem g hg hgg j hj
      exact u2 ve hve rfl
    refine ⟨⟨?_, ?_, ?_, hi.asc, ?_, ?_, hi.key, ?_, hi.kids, ⟨j4, by rw [j3]; exact hi.lids.2⟩, ?_⟩, ⟨rfl, rfl, rfl, rfl⟩,
      fun _ h => h, rfl, rfl, rfl⟩
    · dsimp only
      rw [List.map_append, List.map_cons, List.map_nil, List.nodup_append]
      refine ⟨hi.nd, by simp, fun a ha b hb => ?_⟩
      simp only [List.mem_singleton] at hb
      subst hb
      rw [List.mem_map] at ha
      obtain ⟨ve, hve, rfl⟩ := ha
      exact u2 ve hve
    · intro ve hve
      rcases List.mem_append.1 hve with hve | hve
      · exact hi.ns ve hve
      · simp only [List.mem_singleton] at hve
        subst hve
        exact u1
    · intro ve hve
      rcases List.mem_append.1 hve with hve | hve
      · exact hi.lt ve hve
      · simp only [List.mem_singleton] at hve
        subst hve
        exact j1
    · intro g hg hgg x hx
      obtain ⟨ve, hve, he⟩ := hi.mem g hg hgg x hx
      exact ⟨ve, List.mem_append.2 (.inl hve), he⟩
    · intro ve hve g
      rcases List.mem_append.1 hve with hve | hve
      · exact hi.hist ve hve g
      · simp only [List.mem_singleton] at hve
        subst hve
        constructor
        · intro h; simp [groupsOf] at h
        · rintro ⟨hg, hgg, hm⟩
          exact absurd hm (hng g hg hgg)
    · intro ve hve
      rcases List.mem_append.1 hve with hve | hve
      · exact hi.has ve hve
      · simp only [List.mem_singleton] at hve
        subst hve
        exact hk
    · have := hi.cnt
      dsimp only at this ⊢
      rw [List.length_append, List.length_singleton]
      omega

theorem doToggle_spec {c c' : Codec} {gid i : Nat} (hi : Inv c) (h : doToggle c gid i = .ok c') :
    Inv c' ∧ Same c c' ∧ c'.store.keyMap = c.store.keyMap ∧ c'.store.keyIdx = c.store.keyIdx ∧
      c'.store.lru.length = c.store.lru.length ∧ c'.store.numVals = c.store.numVals ∧
      ∃ hg, c.groups.get? gid = some hg ∧ c'.groups = c.groups.set gid (toggleAsc hg i) := by
  simp only [doToggle, bind, Except.bind] at h
  split at h
  · cases h
  · rename_i ve hve
    split at h
    · cases h
    · rename_i hg hhg
      simp only [pure, Except.pure, Except.ok.injEq] at h
      subst h
      obtain ⟨hm, rfl⟩ := lookup_mem hve
      rw [group_ok] at hhg
      have hmap : (c.store.update ve.idx fun w => { w with hist := w.hist ++
          [if gid ∈ groupsOf ve.hist then GEvent.remove gid else GEvent.add gid] }).lru.map (·.idx) =
          c.store.lru.map (·.idx) := by
        simp only [Store.update, List.map_map]
        apply List.map_congr_left
        intro w _
        simp only [Function.comp_apply]
        split <;> rfl
      have hmem : ∀ w', w' ∈ (c.store.update ve.idx fun w => { w with hist := w.hist ++
          [if gid ∈ groupsOf ve.hist then GEvent.remove gid else GEvent.add gid] }).lru →
          ∃ w ∈ c.store.lru, w'.idx = w.idx ∧ w'.key = w.key ∧ w'.val = w.val ∧ (w.idx ≠ ve.idx → w' = w) ∧
            (w.idx = ve.idx → w = ve ∧ w'.hist = w.hist ++
              [if gid ∈ groupsOf ve.hist then GEvent.remove gid else GEvent.add gid]) := by
        intro w' hw'
        simp only [Store.update, List.mem_map] at hw'
        obtain ⟨w, hw, rfl⟩ := hw'
        refine ⟨w, hw, ?_⟩
        by_cases he : w.idx = ve.idx
        · rw [if_pos he]
          exact ⟨rfl, rfl, rfl, fun hne => absurd he hne, fun _ => ⟨idx_inj hi hw hm he, rfl⟩⟩
        · rw [if_neg he]
          exact ⟨rfl, rfl, rfl, fun _ => rfl, fun e => absurd e he⟩
      refine ⟨⟨?_, ?_, ?_, ?_, ?_, ?_, hi.key, ?_, hi.kids, hi.lids, ?_⟩, ⟨rfl, rfl, rfl, rfl⟩, rfl, rfl, ?_, rfl, hg, hhg, rfl⟩
      · rw [hmap]; exact hi.nd
      · intro w' hw'
        obtain ⟨w, hw, e, -⟩ := hmem w' hw'
        rw [e]; exact hi.ns w hw
      · intro w' hw'
        obtain ⟨w, hw, e, -⟩ := hmem w' hw'
        rw [e]; exact hi.lt w hw
      · intro g hg' h'
        rw [Dict.get?_set] at h'
        split at h'
        · cases h'
          exact asc_toggleAsc (hi.asc gid hg hhg)
        · exact hi.asc g hg' h'
      · intro g hg' h' x hx
        have hx' : x ∈ c.store.lru.map (·.idx) := by
          rw [Dict.get?_set] at h'
          split at h'
          · cases h'
            rcases mem_toggleAsc.1 hx with ⟨h1, -⟩ | ⟨-, rfl⟩
            · obtain ⟨w, hw, rfl⟩ := hi.mem gid hg hhg x h1
              exact List.mem_map_of_mem hw
            · exact List.mem_map_of_mem hm
          · obtain ⟨w, hw, rfl⟩ := hi.mem g hg' h' x hx
            exact List.mem_map_of_mem hw
        rw [← hmap, List.mem_map] at hx'
        exact hx'
      · intro w' hw' g
        obtain ⟨w, hw, e1, -, -, e4, e5⟩ := hmem w' hw'
        rw [Dict.get?_set, e1]
        by_cases he : w.idx = ve.idx
        · obtain ⟨rfl, e6⟩ := e5 he
          rw [e6, groupsOf_snoc]
          have hh := hi.hist w hm
          by_cases hgm : gid ∈ groupsOf w.hist
          · rw [if_pos hgm]
            simp only [groupStep, List.mem_filter, decide_eq_true_eq]
            obtain ⟨hg0, h0, hin⟩ := (hh gid).1 hgm
            rw [hhg] at h0
            cases h0
            by_cases hgg : gid = g
            · subst hgg
              rw [if_pos rfl]
              simp only [ne_eq, not_true_eq_false, and_false, Option.some.injEq, exists_eq_left', false_iff]
              rw [mem_toggleAsc]
              rintro (⟨-, h⟩ | ⟨h, -⟩)
              · exact h rfl
              · exact h hin
            · rw [if_neg hgg, hh g]
              exact ⟨fun h => h.1, fun h => ⟨h, fun e => hgg e.symm⟩⟩
          · rw [if_neg hgm]
            simp only [groupStep, mem_addSet]
            by_cases hgg : gid = g
            · subst hgg
              rw [if_pos rfl]
              simp only [or_true, Option.some.injEq, exists_eq_left', true_iff]
              rw [mem_toggleAsc]
              refine .inr ⟨fun hin => hgm ((hh gid).2 ⟨hg, hhg, hin⟩), rfl⟩
            · rw [if_neg hgg, hh g]
              exact ⟨fun h => h.resolve_right (fun e => hgg e.symm), .inl⟩
        · rw [e4 he, hi.hist w hw g]
          split
          · rename_i hgg
            subst hgg
            rw [hhg]
            simp only [Option.some.injEq, exists_eq_left']
            rw [mem_toggleAsc]
            constructor
            · exact fun h => .inl ⟨h, he⟩
            · rintro (h | h)
              · exact h.1
              · exact absurd h.2 he
          · rfl
      · intro w' hw'
        obtain ⟨w, hw, -, e, -⟩ := hmem w' hw'
        rw [e]; exact hi.has w hw
      · have := hi.cnt
        simp only [Store.update, List.length_map]
        exact this
      · simp [Store.update]

theorem storeOne_spec {c c' : Codec} {gid : Nat} {kv : Hdr} (hi : Inv c) (h : storeOne gid c kv = .ok c') :
    Inv c' ∧ Same c c' ∧ KeysKept c c' ∧
      (c'.store.lru.length ≤ c.store.lru.length ∨ c'.store.lru.length ≤ max c.store.maxVals.toNat 1) ∧
      ∀ g, glen c' g ≤ glen c g + if g = gid then 1 else 0 := by
  simp only [storeOne, bind, Except.bind] at h
  split at h
  · cases h
  · rename_i v hv
    obtain ⟨c1, new⟩ := v
    obtain ⟨i1, i2, i3, ⟨n, i4⟩, il, i5, i6⟩ := insertVal_spec hi hv
    dsimp only at h
    cases new with
    | false =>
      simp only [Bool.false_eq_true, if_false, pure, Except.pure, Except.ok.injEq] at h
      subst h
      exact ⟨i5 rfl, i1, i2, .inl (by rw [i4, List.length_drop]; omega), fun g => Nat.le_trans (il g) (Nat.le_add_right _ _)⟩
    | true =>
      simp only [if_true] at h
      split at h
      · cases h
      · rename_i w hw
        obtain ⟨c2, i⟩ := w
        obtain ⟨j0, j0'⟩ := i6 rfl
        obtain ⟨j1, j2, j3, j4, j5, j6⟩ := addToHead_spec j0 i3 hw
        obtain ⟨k1, k2, k3, k4, k5, k6, hg, k7, k8⟩ := doToggle_spec j1 h
        refine ⟨k1, i1.trans (j2.trans k2), fun k hk => ?_, .inr ?_, fun g => ?_⟩
        · rw [k3]; exact j3 k (i2 k hk)
        · rw [k5, j4, List.length_append, List.length_singleton]
          rcases j0' with h0 | h0
          · rw [h0]; simp only [List.length_nil]; omega
          · have := j0.inv.cnt
            have hm : c1.store.maxVals = c.store.maxVals := i1.2.2.1
            rw [hm] at h0
            dsimp only at this
            omega
        · refine Nat.le_trans ?_ (Nat.add_le_add_right (il g) _)
          simp only [glen]
          rw [k8, Dict.get?_set, ← j5]
          by_cases hgg : gid = g
          · subst hgg
            rw [if_pos rfl, if_pos rfl, k7]
            exact toggleAsc_length hg i
          · rw [if_neg hgg]
            omega

theorem storeAll_spec (gid : Nat) (kvs : List Hdr) : ∀ {c c' : Codec}, Inv c → storeAll gid kvs c = .ok c' →
    Inv c' ∧ Same c c' ∧ KeysKept c c' ∧
      (c'.store.lru.length ≤ c.store.lru.length ∨ c'.store.lru.length ≤ max c.store.maxVals.toNat 1) ∧
      ∀ g, glen c' g ≤ glen c g + if g = gid then kvs.length else 0 := by
  induction kvs with
  | nil => intro c c' hi h; cases h; exact ⟨hi, Same.refl c, fun _ h => h, .inl (Nat.le_refl _), fun g => by simp⟩
  | cons kv kvs ih =>
    intro c c' hi h
    simp only [storeAll, bind, Except.bind] at h
    split at h
    · cases h
    · rename_i c1 h1
      obtain ⟨i1, i2, i3, i4, i5⟩ := storeOne_spec hi h1
      obtain ⟨j1, j2, j3, j4, j5⟩ := ih i1 h
      refine ⟨j1, i2.trans j2, fun k hk => j3 k (i3 k hk), ?_, fun g => ?_⟩
      · have hm : c1.store.maxVals = c.store.maxVals := i2.2.2.1
        rw [hm] at j4
        omega
      · have h1 := i5 g
        have h2 := j5 g
        rw [List.length_cons]
        split at h1 <;> split at h2 <;> rename_i ha hb
        · rw [if_pos ha]; omega
        · exact absurd ha hb
        · exact absurd hb ha
        · rw [if_neg ha]; omega

/-! ### Renumbering -/

/-- The order in which sets of groups are iterated lists their elements. -/
def GroupOrder (ordG : List GEvent → List Nat) : Prop := ∀ hist, (ordG hist).Perm (groupsOf hist)

theorem filter_length {l : List VE} (hnd : (l.map (·.idx)).Nodup) {ve : VE} (hm : ve ∈ l) :
    (l.filter (·.idx ≠ ve.idx)).length + 1 = l.length := by
  induction l with
  | nil => cases hm
  | cons x xs ih =>
    rw [List.map_cons, List.nodup_cons] at hnd
    by_cases he : x.idx = ve.idx
    · have hx : ∀ w ∈ xs, w.idx ≠ ve.idx := fun w hw e => hnd.1 (he ▸ e ▸ List.mem_map_of_mem hw)
      rw [List.filter_cons_of_neg (by simp [he]), List.filter_eq_self.2 (by simpa using hx)]
      simp
    · have hm' : ve ∈ xs := by
        rcases List.mem_cons.1 hm with rfl | hm
        · exact absurd rfl he
        · exact hm
      rw [List.filter_cons_of_pos (by simpa using he), List.length_cons, ih hnd.2 hm', List.length_cons]

theorem renumber_spec {ordG : List GEvent → List Nat} (ho : GroupOrder ordG) {c c' : Codec} {gid i : Nat} (hi : Inv c)
    (hin : ∃ hg, c.groups.get? gid = some hg ∧ i ∈ hg) (h : renumber ordG gid c i = .ok c') :
    Inv c' ∧ Same c c' ∧ c'.store.keyMap = c.store.keyMap ∧ c'.store.lru.length = c.store.lru.length ∧
      (∀ g hg', c'.groups.get? g = some hg' → ∃ hg, c.groups.get? g = some hg ∧ hg'.length ≤ hg.length ∧
        ∀ x ∈ hg, x ≠ i → x ∈ hg') ∧
      (∀ g hg, c.groups.get? g = some hg → ∃ hg', c'.groups.get? g = some hg') := by
  simp only [renumber, bind, Except.bind] at h
  split at h
  · cases h
  rename_i ve hve
  split at h
  · cases h
  rename_i groups hr
  split at h
  · cases h
  rename_i v hv
  obtain ⟨ids, j⟩ := v
  dsimp only at h
  split at h
  · cases h
  rename_i hg hhg
  simp only [pure, Except.pure, Except.ok.injEq] at h
  subst h
  obtain ⟨hm, rfl⟩ := lookup_mem hve
  have hperm := ho ve.hist
  have hG := removeFrom_spec ve.idx _ (hperm.nodup_iff.2 (nodup_groupsOf ve.hist)) hr
  have hmemG : ∀ g, g ∈ ordG ve.hist ↔ ∃ hg, c.groups.get? g = some hg ∧ ve.idx ∈ hg := fun g => by
    rw [hperm.mem_iff]; exact hi.hist ve hm g
  obtain ⟨last, hlast, hlastm⟩ : ∃ last, (ordG ve.hist).getLast?.getD gid = last ∧ last ∈ ordG ve.hist := by
    have hne : ordG ve.hist ≠ [] := List.ne_nil_of_mem ((hmemG gid).2 hin)
    refine ⟨(ordG ve.hist).getLast hne, ?_, List.getLast_mem hne⟩
    rw [List.getLast?_eq_some_getLast hne]
    rfl
  rw [hlast] at hhg ⊢
  rw [group_ok] at hhg
  obtain ⟨j1, j2, j3, j4⟩ := nextUnused_spec (by rw [hi.lids.1]; exact hi.lids.2) hv
  rw [hi.lids.1] at j1 j4
  obtain ⟨u1, u2⟩ := used_false j2
  dsimp only at u1 u2
  have hoth : ∀ w ∈ c.store.lru, w.idx ≠ ve.idx → w ∈ c.store.lru.filter (·.idx ≠ ve.idx) := fun w hw hne =>
    List.mem_filter.2 ⟨hw, by simpa using hne⟩
  have hoth' : ∀ w ∈ c.store.lru.filter (·.idx ≠ ve.idx), w ∈ c.store.lru ∧ w.idx ≠ ve.idx := fun w hw => by
    simpa using hw
  -- the groups without the entry
  have hget : ∀ g hg', groups.get? g = some hg' → ∃ hg0, c.groups.get? g = some hg0 ∧
      (∀ y, y ∈ hg' ↔ y ∈ hg0 ∧ y ≠ ve.idx) ∧ hg'.Pairwise (· < ·) ∧ hg'.length ≤ hg0.length ∧
      (ve.idx ∈ hg0 → hg'.length + 1 ≤ hg0.length) := by
    intro g hg' h'
    rw [hG g] at h'
    split at h'
    · rw [Option.map_eq_some_iff] at h'
      obtain ⟨hg0, h0, rfl⟩ := h'
      exact ⟨hg0, h0, fun y => mem_removeAsc, asc_removeAsc (hi.asc g hg0 h0), List.length_filter_le _ _, removeAsc_length⟩
    · rename_i hgm
      have hnot : ve.idx ∉ hg' := fun hy => hgm ((hmemG g).2 ⟨hg', h', hy⟩)
      refine ⟨hg', h', fun y => ⟨fun hy => ⟨hy, ?_⟩, fun hy => hy.1⟩, hi.asc g hg' h', Nat.le_refl _, fun h => absurd h hnot⟩
      rintro rfl
      exact hnot hy
  have hget' : ∀ g hg0, c.groups.get? g = some hg0 → ∃ hg', groups.get? g = some hg' := by
    intro g hg0 h0
    rw [hG g, h0]
    split <;> exact ⟨_, rfl⟩
  -- the groups with it
  have hnew : ∀ g hg', (groups.set last (insertAsc j hg)).get? g = some hg' → ∃ hg0, c.groups.get? g = some hg0 ∧
      (∀ y, y ∈ hg' ↔ (y ∈ hg0 ∧ y ≠ ve.idx) ∨ (g = last ∧ y = j)) ∧ hg'.Pairwise (· < ·) ∧ hg'.length ≤ hg0.length := by
    intro g hg' h'
    rw [Dict.get?_set] at h'
    split at h'
    · rename_i he
      subst he
      cases h'
      obtain ⟨hg0, h0, m0, a0, l0, l1⟩ := hget last hg hhg
      refine ⟨hg0, h0, fun y => ?_, asc_insertAsc a0, ?_⟩
      · rw [mem_insertAsc, m0 y]
        simp
      · have := insertAsc_length j hg
        obtain ⟨hg1, h1, h2⟩ := (hmemG last).1 hlastm
        rw [h0] at h1
        cases h1
        have := l1 h2
        omega
    · rename_i he
      obtain ⟨hg0, h0, m0, a0, l0, -⟩ := hget g hg' h'
      refine ⟨hg0, h0, fun y => ?_, a0, l0⟩
      rw [m0 y]
      constructor
      · exact .inl
      · rintro (h | h)
        · exact h
        · exact absurd h.1.symm he
  have hnew' : ∀ g hg0, c.groups.get? g = some hg0 → ∃ hg', (groups.set last (insertAsc j hg)).get? g = some hg' := by
    intro g hg0 h0
    rw [Dict.get?_set]
    split
    · exact ⟨_, rfl⟩
    · exact hget' g hg0 h0
  have hjn : ∀ g hg0, c.groups.get? g = some hg0 → ¬(j ∈ hg0 ∧ j ≠ ve.idx) := by
    rintro g hg0 h0 ⟨hj, hne⟩
    obtain ⟨w, hw, rfl⟩ := hi.mem g hg0 h0 j hj
    exact u2 w (hoth w hw hne) rfl
  have hlen := filter_length hi.nd hm
  refine ⟨⟨?_, ?_, ?_, ?_, ?_, ?_, hi.key, ?_, hi.kids, ⟨j4, by rw [j3]; exact hi.lids.2⟩, ?_⟩, ⟨rfl, rfl, rfl, rfl⟩, rfl, ?_,
    ?_, hnew'⟩
  · dsimp only
    rw [List.map_append, List.map_cons, List.map_nil, List.nodup_append]
    refine ⟨hi.nd.sublist (List.filter_sublist.map _), by simp, fun a ha b hb => ?_⟩
    simp only [List.mem_singleton] at hb
    subst hb
    rw [List.mem_map] at ha
    obtain ⟨w, hw, rfl⟩ := ha
    exact u2 w hw
  · intro w hw
    rcases List.mem_append.1 hw with hw | hw
    · exact hi.ns w (hoth' w hw).1
    · simp only [List.mem_singleton] at hw
      subst hw
      exact u1
  · intro w hw
    rcases List.mem_append.1 hw with hw | hw
    · exact hi.lt w (hoth' w hw).1
    · simp only [List.mem_singleton] at hw
      subst hw
      exact j1
  · intro g hg' h'
    exact (hnew g hg' h').choose_spec.2.2.1
  · intro g hg' h' x hx
    obtain ⟨hg0, h0, m0, -⟩ := hnew g hg' h'
    rcases (m0 x).1 hx with ⟨h1, h2⟩ | ⟨-, rfl⟩
    · obtain ⟨w, hw, rfl⟩ := hi.mem g hg0 h0 x h1
      exact ⟨w, List.mem_append.2 (.inl (hoth w hw h2)), rfl⟩
    · exact ⟨_, List.mem_append.2 (.inr (List.mem_singleton.2 rfl)), rfl⟩
  · intro w hw g
    rcases List.mem_append.1 hw with hw | hw
    · obtain ⟨hw1, hw2⟩ := hoth' w hw
      rw [hi.hist w hw1 g]
      constructor
      · rintro ⟨hg0, h0, hx⟩
        obtain ⟨hg', h'⟩ := hnew' g hg0 h0
        obtain ⟨hg1, h1, m1, -⟩ := hnew g hg' h'
        rw [h0] at h1
        cases h1
        exact ⟨hg', h', (m1 _).2 (.inl ⟨hx, hw2⟩)⟩
      · rintro ⟨hg', h', hx⟩
        obtain ⟨hg1, h1, m1, -⟩ := hnew g hg' h'
        rcases (m1 _).1 hx with h2 | h2
        · exact ⟨hg1, h1, h2.1⟩
        · exact absurd h2.2 (u2 w hw)
    · simp only [List.mem_singleton] at hw
      subst hw
      dsimp only
      rw [groupsOf_renumbered, List.mem_singleton]
      constructor
      · rintro rfl
        obtain ⟨hg0, h0, -⟩ := (hmemG g).1 hlastm
        obtain ⟨hg', h'⟩ := hnew' g hg0 h0
        obtain ⟨hg1, h1, m1, -⟩ := hnew g hg' h'
        exact ⟨hg', h', (m1 j).2 (.inr ⟨rfl, rfl⟩)⟩
      · rintro ⟨hg', h', hx⟩
        obtain ⟨hg1, h1, m1, -⟩ := hnew g hg' h'
        rcases (m1 _).1 hx with h2 | h2
        · exact absurd h2 (hjn g hg1 h1)
        · exact h2.1
  · intro w hw
    rcases List.mem_append.1 hw with hw | hw
    · exact hi.has w (hoth' w hw).1
    · simp only [List.mem_singleton] at hw
      subst hw
      exact hi.has ve hm
  · dsimp only
    rw [List.length_append, List.length_singleton, hlen]
    exact hi.cnt
  · dsimp only
    rw [List.length_append, List.length_singleton, hlen]
  · intro g hg' h'
    obtain ⟨hg0, h0, m0, -, l0⟩ := hnew g hg' h'
    exact ⟨hg0, h0, l0, fun x hx hne => (m0 x).2 (.inl ⟨hx, hne⟩)⟩

theorem renumberAll_spec {ordG : List GEvent → List Nat} (ho : GroupOrder ordG) (gid : Nat) (is : List Nat) :
    ∀ {c c' : Codec}, Inv c → is.Nodup → (∀ i ∈ is, ∃ hg, c.groups.get? gid = some hg ∧ i ∈ hg) →
    renumberAll ordG gid is c = .ok c' →
    Inv c' ∧ Same c c' ∧ c'.store.keyMap = c.store.keyMap ∧ c'.store.lru.length = c.store.lru.length ∧
      (∀ g hg', c'.groups.get? g = some hg' → ∃ hg, c.groups.get? g = some hg ∧ hg'.length ≤ hg.length) := by
  induction is with
  | nil =>
    intro c c' hi _ _ h
    cases h
    exact ⟨hi, Same.refl c, rfl, rfl, fun g hg h => ⟨hg, h, Nat.le_refl _⟩⟩
  | cons i is ih =>
    intro c c' hi hnd hin h
    rw [List.nodup_cons] at hnd
    simp only [renumberAll, bind, Except.bind] at h
    split at h
    · cases h
    · rename_i c1 h1
      obtain ⟨i1, i2, i3, i4, i5, i6⟩ := renumber_spec ho hi (hin i (by simp)) h1
      obtain ⟨j1, j2, j3, j4, j5⟩ := ih i1 hnd.2 (fun x hx => by
        obtain ⟨hg, h0, hx0⟩ := hin x (by simp [hx])
        obtain ⟨hg', h'⟩ := i6 gid hg h0
        obtain ⟨hg1, h1, -, h2⟩ := i5 gid hg' h'
        rw [h0] at h1
        cases h1
        exact ⟨hg', h', h2 x hx0 (fun e => hnd.1 (e ▸ hx))⟩) h
      refine ⟨j1, i2.trans j2, j3.trans i3, j4.trans i4, fun g hg' h' => ?_⟩
      obtain ⟨hg1, h1, l1⟩ := j5 g hg' h'
      obtain ⟨hg0, h0, l0, -⟩ := i5 g hg1 h1
      exact ⟨hg0, h0, by omega⟩

theorem adjust_spec {ordG : List GEvent → List Nat} (ho : GroupOrder ordG) {gid : Nat} {c c' : Codec} (hi : Inv c)
    (h : adjust ordG c gid = .ok c') :
    Inv c' ∧ Same c c' ∧ c'.store.keyMap = c.store.keyMap ∧ c'.store.lru.length = c.store.lru.length ∧
      (∀ g hg', c'.groups.get? g = some hg' → ∃ hg, c.groups.get? g = some hg ∧ hg'.length ≤ hg.length) := by
  simp only [adjust, bind, Except.bind] at h
  split at h
  · cases h
  · rename_i hg hhg
    rw [group_ok] at hhg
    exact renumberAll_spec ho gid hg hi (asc_nodup (hi.asc gid hg hhg)) (fun i hx => ⟨hg, hhg, hx⟩) h

end Verif.Delta1
