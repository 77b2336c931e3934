import Verif.Delta1.StoreLemmas
import Verif.Delta1.WireLemmas
/-
Executing and making operations.
-/
namespace Verif.Delta1
open Verif Verif.Delta2 Verif.Huff

theorem set_same {α β : Type} [DecidableEq α] {d : Dict α β} {k : α} {v : β} (h : d.get? k = some v) : d.set k v = d := by
  induction d with
  | nil => simp [Dict.get?] at h
  | cons kv d ih =>
    obtain ⟨a, b⟩ := kv
    rw [Dict.get?_cons] at h
    unfold Dict.set
    split
    · rename_i he
      rw [if_pos he] at h
      cases h
      rfl
    · rename_i he
      rw [if_neg he] at h
      rw [ih h]

theorem set_set {α β : Type} [DecidableEq α] (d : Dict α β) (k : α) (v w : β) : (d.set k v).set k w = d.set k w := by
  induction d with
  | nil => simp [Dict.set]
  | cons kv d ih =>
    obtain ⟨a, b⟩ := kv
    by_cases he : a = k
    · simp [Dict.set, he]
    · simp [Dict.set, he, ih]

/-! ### Toggling several entries -/

/-- The entry after it was toggled. -/
def flip (gid : Nat) (ve : VE) : VE :=
  { ve with hist := ve.hist ++ [if gid ∈ groupsOf ve.hist then GEvent.remove gid else GEvent.add gid] }

/-- The state after the entries with these indices were toggled. -/
def toggledC (c : Codec) (gid : Nat) (hg : List Nat) (S : List Nat) : Codec :=
  { store := { c.store with lru := c.store.lru.map fun ve => if ve.idx ∈ S then flip gid ve else ve }
    groups := c.groups.set gid (S.foldl toggleAsc hg) }

theorem doToggle_eq {c : Codec} (hi : Inv c) {gid : Nat} {hg : List Nat} (hhg : c.groups.get? gid = some hg) {ve : VE}
    (hm : ve ∈ c.store.lru) : doToggle c gid ve.idx = .ok (toggledC c gid hg [ve.idx]) := by
  simp only [doToggle, bind, Except.bind, lookup_ok hi hm, group_ok.2 hhg, pure, Except.pure, toggledC, List.foldl_cons,
    List.foldl_nil, List.mem_singleton, Store.update]
  congr 3
  apply List.map_congr_left
  intro w hw
  by_cases he : w.idx = ve.idx
  · rw [if_pos he, if_pos he, idx_inj hi hw hm he]
    rfl
  · rw [if_neg he, if_neg he]

theorem toggleAll_eq (gid : Nat) (S : List Nat) : ∀ {c : Codec} {hg : List Nat}, Inv c → c.groups.get? gid = some hg →
    S.Nodup → (∀ i ∈ S, ∃ ve ∈ c.store.lru, ve.idx = i) → toggleAll gid S c = .ok (toggledC c gid hg S) := by
  induction S with
  | nil =>
    intro c hg _ hhg _ _
    simp [toggleAll, toggledC, set_same hhg]
  | cons i S ih =>
    intro c hg hi hhg hnd hin
    rw [List.nodup_cons] at hnd
    obtain ⟨ve, hm, rfl⟩ := hin i (by simp)
    have e1 := doToggle_eq hi hhg hm
    obtain ⟨i1, -⟩ := doToggle_spec hi e1
    have e2 := ih (c := toggledC c gid hg [ve.idx]) (hg := toggleAsc hg ve.idx) i1
      (by simp [toggledC, Dict.get?_set]) hnd.2 (fun x hx => by
        obtain ⟨w, hw, rfl⟩ := hin x (by simp [hx])
        refine ⟨if w.idx ∈ [ve.idx] then flip gid w else w, List.mem_map_of_mem hw, ?_⟩
        split <;> rfl)
    simp only [toggleAll, bind, Except.bind, e1, e2]
    simp only [toggledC, set_set, List.foldl_cons, List.map_map]
    congr 3
    apply List.map_congr_left
    intro w hw
    simp only [Function.comp_apply, List.mem_singleton]
    by_cases he : w.idx = ve.idx
    · have h1 : w.idx ∉ S := fun h => hnd.1 (he ▸ h)
      have h2 : (flip gid w).idx = w.idx := rfl
      rw [if_pos he, h2, if_neg h1, if_pos (by simp [he])]
    · rw [if_neg he]
      by_cases hS : w.idx ∈ S
      · rw [if_pos hS, if_pos (by simp [hS])]
      · rw [if_neg hS, if_neg (by simp [hS, he])]

theorem mem_toggles (S : List Nat) : ∀ {hg : List Nat}, S.Nodup → ∀ y,
    y ∈ S.foldl toggleAsc hg ↔ (y ∈ hg ∧ y ∉ S) ∨ (y ∉ hg ∧ y ∈ S) := by
  induction S with
  | nil => intro hg _ y; simp
  | cons i S ih =>
    intro hg hnd y
    rw [List.nodup_cons] at hnd
    rw [List.foldl_cons, ih hnd.2 y, mem_toggleAsc, List.mem_cons]
    by_cases he : y = i
    · subst he
      simp [hnd.1]
    · simp [he]

theorem asc_toggles (S : List Nat) : ∀ {hg : List Nat}, hg.Pairwise (· < ·) → (S.foldl toggleAsc hg).Pairwise (· < ·) := by
  induction S with
  | nil => intro hg h; exact h
  | cons i S ih => intro hg h; exact ih (asc_toggleAsc h)

/-- The order in which entries are toggled does not matter. -/
theorem toggledC_perm (c : Codec) (gid : Nat) {hg S T : List Nat} (ha : hg.Pairwise (· < ·)) (hS : S.Nodup)
    (h : S.Perm T) : toggledC c gid hg S = toggledC c gid hg T := by
  have h1 : S.foldl toggleAsc hg = T.foldl toggleAsc hg := by
    apply asc_eq (asc_toggles S ha) (asc_toggles T ha)
    intro x
    rw [mem_toggles S hS, mem_toggles T (h.nodup_iff.1 hS), h.mem_iff]
  have h2 : (fun ve : VE => if ve.idx ∈ S then flip gid ve else ve) = fun ve => if ve.idx ∈ T then flip gid ve else ve := by
    funext ve
    simp only [h.mem_iff]
  simp only [toggledC, h1, h2]

/-! ### Executing -/

/-- Is a toggle. -/
def Op.isToggle : Op → Bool
  | .toggl _ | .trang _ _ => true
  | _ => false

/-- Is stored. -/
def Op.isStored : Op → Bool
  | .clone _ _ | .kvsto _ _ => true
  | _ => false

/-- The header an operation stands for. -/
def litOf (s : Store) : Op → Hdr
  | .clone k v => ((s.keyIdx.get? k).getD [], v)
  | .kvsto k v | .eref k v => (k, v)
  | _ => ([], [])

/-- The header an index stands for. -/
def pairOf (s : Store) (i : Nat) : Hdr :=
  match s.lru.find? (·.idx = i) with
  | some ve => (ve.key, ve.val)
  | none => ([], [])

theorem pairOf_mem {c : Codec} (hi : Inv c) {ve : VE} (hm : ve ∈ c.store.lru) : pairOf c.store ve.idx = (ve.key, ve.val) := by
  simp only [pairOf, find_idx hi.nd hm]

theorem toggleAll_append (gid : Nat) (S T : List Nat) : ∀ c : Codec,
    toggleAll gid (S ++ T) c = (do let c ← toggleAll gid S c; toggleAll gid T c) := by
  induction S with
  | nil => intro c; rfl
  | cons i S ih =>
    intro c
    simp only [List.cons_append, toggleAll, bind, Except.bind]
    cases doToggle c gid i with
    | error e => rfl
    | ok c1 => exact ih c1

theorem execOps_toggles (gid : Nat) (ops rest : List Op) : (∀ op ∈ ops, op.isToggle = true) →
    ∀ (c : Codec) (h : Dict Str Str) (kvs : List Hdr), execOps gid (ops ++ rest) c h kvs =
      (do let c ← toggleAll gid (ops.flatMap Op.toggled) c; execOps gid rest c h kvs) := by
  induction ops with
  | nil => intro _ c h kvs; rfl
  | cons op ops ih =>
    intro ht c h kvs
    have ih := ih (fun o ho => ht o (by simp [ho]))
    have h0 := ht op (by simp)
    rw [List.flatMap_cons, toggleAll_append, List.cons_append]
    cases op with
    | toggl i =>
      simp only [execOps, Op.toggled, bind, Except.bind]
      cases toggleAll gid [i] c with
      | error e => rfl
      | ok c1 => exact ih c1 h kvs
    | trang s l =>
      simp only [execOps, Op.toggled, bind, Except.bind]
      cases toggleAll gid (range s l) c with
      | error e => rfl
      | ok c1 => exact ih c1 h kvs
    | clone k v => simp [Op.isToggle] at h0
    | kvsto k v => simp [Op.isToggle] at h0
    | eref k v => simp [Op.isToggle] at h0

theorem execOps_lits (gid : Nat) (c : Codec) (ops : List Op) : (∀ op ∈ ops, op.isToggle = false) →
    (∀ k v, Op.clone k v ∈ ops → (c.store.keyIdx.get? k).isSome) →
    ∀ (h : Dict Str Str) (kvs : List Hdr), execOps gid ops c h kvs =
      .ok (c, appendAll (ops.map (litOf c.store)) h, kvs ++ (ops.filter Op.isStored).map (litOf c.store)) := by
  induction ops with
  | nil => intro _ _ h kvs; simp [execOps, appendAll]
  | cons op ops ih =>
    intro ht hk h kvs
    have ih := ih (fun o ho => ht o (by simp [ho])) (fun k v ho => hk k v (by simp [ho]))
    have h0 := ht op (by simp)
    cases op with
    | toggl i => simp [Op.isToggle] at h0
    | trang s l => simp [Op.isToggle] at h0
    | clone k v =>
      obtain ⟨key, hkey⟩ := Option.isSome_iff_exists.1 (hk k v (by simp))
      simp only [execOps, hkey, ih, List.map_cons, appendAll, List.foldl_cons, litOf, Option.getD_some]
      rw [List.filter_cons_of_pos (by rfl), List.map_cons]
      simp [litOf, hkey]
    | kvsto k v =>
      simp only [execOps, ih, List.map_cons, appendAll, List.foldl_cons, litOf]
      rw [List.filter_cons_of_pos (by rfl), List.map_cons]
      simp [litOf]
    | eref k v =>
      simp only [execOps, ih, List.map_cons, appendAll, List.foldl_cons, litOf]
      rw [List.filter_cons_of_neg (by simp [Op.isStored])]

theorem turnOn_eq {c : Codec} (hi : Inv c) (is : List Nat) : (∀ i ∈ is, ∃ ve ∈ c.store.lru, ve.idx = i) →
    ∀ h, turnOn c.store is h = .ok (appendAll (is.map (pairOf c.store)) h) := by
  induction is with
  | nil => intro _ h; rfl
  | cons i is ih =>
    intro hin h
    obtain ⟨ve, hm, rfl⟩ := hin i (by simp)
    simp only [turnOn, bind, Except.bind, lookup_ok hi hm, List.map_cons, pairOf_mem hi hm, appendAll, List.foldl_cons]
    exact ih (fun x hx => hin x (by simp [hx])) _

theorem toggledC_keyIdx (c : Codec) (gid : Nat) (hg S : List Nat) : (toggledC c gid hg S).store.keyIdx = c.store.keyIdx := rfl

/-- What executing toggles and then literals does. -/
theorem execute_eq {c : Codec} (hi : Inv c) {gid : Nat} {hg : List Nat} (hhg : c.groups.get? gid = some hg)
    {ord : List Nat → List Nat} (ho : ∀ l, (ord l).Perm l) (tops lits : List Op) (ht : ∀ op ∈ tops, op.isToggle = true)
    (hl : ∀ op ∈ lits, op.isToggle = false) (hk : ∀ k v, Op.clone k v ∈ lits → (c.store.keyIdx.get? k).isSome)
    (hnd : (tops.flatMap Op.toggled).Nodup) (hin : ∀ i ∈ tops.flatMap Op.toggled, ∃ ve ∈ c.store.lru, ve.idx = i) :
    execute ord c (tops ++ lits) gid =
      (storeAll gid ((lits.filter Op.isStored).map (litOf c.store)) (toggledC c gid hg (tops.flatMap Op.toggled))).map
        fun c' => (c', fixCookie (appendAll ((ord (symDiff ((tops.flatMap Op.toggled).foldl addSet []) hg)).map
          (pairOf c.store) ++ lits.map (litOf c.store)) [])) := by
  have hlt : lits.flatMap Op.toggled = [] := by
    rw [List.flatMap_eq_nil_iff]
    intro op ho
    have := hl op ho
    cases op <;> simp_all [Op.isToggle, Op.toggled]
  have hon : ∀ i ∈ ord (symDiff ((tops.flatMap Op.toggled).foldl addSet []) hg), ∃ ve ∈ c.store.lru, ve.idx = i := by
    intro i him
    rw [(ho _).mem_iff, mem_symDiff (asc_nodup (hi.asc gid hg hhg)), mem_addAll] at him
    rcases him with ⟨h | h, -⟩ | ⟨-, h⟩
    · cases h
    · exact hin i h
    · exact hi.mem gid hg hhg i h
  have hfm : findOrMake c gid = c := by
    simp only [findOrMake, Dict.has, hhg, Option.isSome_some, if_true]
  have e1 := turnOn_eq hi _ hon []
  have e2 := toggleAll_eq gid _ hi hhg hnd hin
  simp only [execute, bind, Except.bind, hfm, group_ok.2 hhg, List.flatMap_append, hlt, List.append_nil, e1,
    execOps_toggles gid tops lits ht, e2]
  rw [execOps_lits gid _ lits hl (by rw [toggledC_keyIdx]; exact hk)]
  have hlit : litOf (toggledC c gid hg (tops.flatMap Op.toggled)).store = litOf c.store := by
    funext op
    cases op <;> rfl
  simp only [hlit, List.nil_append]
  cases storeAll gid ((lits.filter Op.isStored).map (litOf c.store)) (toggledC c gid hg (tops.flatMap Op.toggled)) with
  | error e => rfl
  | ok c' =>
    simp only [Except.map, pure, Except.pure, appendAll, List.foldl_append]

/-! ### Ranges of toggles -/

theorem range_snoc {s l : Nat} (h : s ≤ l + 1) : range s (l + 1) = range s l ++ [l + 1] := by
  unfold range
  rw [show l + 1 + 1 - s = (l + 1 - s) + 1 by omega, List.range_succ, List.map_append, List.map_singleton,
    show s + (l + 1 - s) = l + 1 by omega]

theorem range_self (s : Nat) : range s s = [s] := by
  unfold range
  rw [show s + 1 - s = 1 by omega]
  rfl

/-- All indices that toggles and ranges stand for. -/
def RangeSt.all (st : RangeSt) : List Nat := st.ot ++ st.otr.flatMap fun r => range r.1 r.2

theorem getLast_split {α : Type} {l : List α} {x : α} (h : l.getLast? = some x) : l = l.dropLast ++ [x] := by
  have hne : l ≠ [] := by
    rintro rfl
    cases h
  rw [List.getLast?_eq_some_getLast hne] at h
  cases h
  exact (List.dropLast_append_getLast hne).symm

theorem rangeStep_spec (st : RangeSt) (hle : ∀ r ∈ st.otr, r.1 ≤ r.2) (i : Nat) :
    (rangeStep st i).all.Perm (st.all ++ [i]) ∧ (∀ r ∈ (rangeStep st i).otr, r.1 ≤ r.2) ∧
      (rangeStep st i).ot.length + (rangeStep st i).otr.length ≤ st.ot.length + st.otr.length + 1 := by
  have helse : ∀ st : RangeSt, (∀ r ∈ st.otr, r.1 ≤ r.2) →
      (rangeStep.rangeElse st i).all.Perm (st.all ++ [i]) ∧ (∀ r ∈ (rangeStep.rangeElse st i).otr, r.1 ≤ r.2) ∧
      (rangeStep.rangeElse st i).ot.length + (rangeStep.rangeElse st i).otr.length ≤ st.ot.length + st.otr.length + 1 := by
    intro st hle
    have hpush : ({ st with ot := st.ot ++ [i] } : RangeSt).all.Perm (st.all ++ [i]) := by
      simp only [RangeSt.all, List.append_assoc]
      exact List.Perm.append_left _ List.perm_append_comm
    have hpushl : ({ st with ot := st.ot ++ [i] } : RangeSt).ot.length + ({ st with ot := st.ot ++ [i] } : RangeSt).otr.length ≤
        st.ot.length + st.otr.length + 1 := by
      simp only [List.length_append, List.length_singleton]; omega
    unfold rangeStep.rangeElse
    split
    · rename_i x hx
      split
      · rename_i he
        subst he
        have hs := getLast_split hx
        refine ⟨?_, ?_, ?_⟩
        · simp only [RangeSt.all, List.flatMap_append, List.flatMap_cons, List.flatMap_nil, List.append_nil]
          rw [range_snoc (by omega), range_self]
          conv_rhs => rw [hs]
          simp only [List.append_assoc]
          refine List.Perm.append_left _ ?_
          simp only [← List.append_assoc]
          exact List.Perm.append_right _ List.perm_append_comm
        · intro r hr
          rcases List.mem_append.1 hr with hr | hr
          · exact hle r hr
          · simp only [List.mem_singleton] at hr
            subst hr
            simp
        · simp only [List.length_append, List.length_singleton, List.length_dropLast]; omega
      · exact ⟨hpush, hle, hpushl⟩
    · exact ⟨hpush, hle, hpushl⟩
  unfold rangeStep
  split
  · rename_i r hr
    split
    · rename_i he
      subst he
      have hs := getLast_split hr
      have hr' : r.1 ≤ r.2 := hle r (List.mem_of_getLast? hr)
      refine ⟨?_, ?_, ?_⟩
      · simp only [RangeSt.all]
        conv_rhs => rw [hs]
        simp only [List.flatMap_append, List.flatMap_cons, List.flatMap_nil, List.append_nil]
        rw [range_snoc (by omega)]
        simp
      · intro q hq
        rcases List.mem_append.1 hq with hq | hq
        · exact hle q (List.dropLast_subset _ hq)
        · simp only [List.mem_singleton] at hq
          subst hq
          simp only
          omega
      · have := congrArg List.length hs
        simp only [List.length_append, List.length_singleton] at this ⊢
        omega
    · exact helse st hle
  · exact helse st hle

theorem rangeFold_spec (l : List Nat) : ∀ st : RangeSt, (∀ r ∈ st.otr, r.1 ≤ r.2) →
    (l.foldl rangeStep st).all.Perm (st.all ++ l) ∧ (∀ r ∈ (l.foldl rangeStep st).otr, r.1 ≤ r.2) ∧
      (l.foldl rangeStep st).ot.length + (l.foldl rangeStep st).otr.length ≤ st.ot.length + st.otr.length + l.length := by
  induction l with
  | nil => intro st hle; simpa using hle
  | cons i l ih =>
    intro st hle
    obtain ⟨h1, h2, h3⟩ := rangeStep_spec st hle i
    obtain ⟨j1, j2, j3⟩ := ih _ h2
    refine ⟨j1.trans ?_, j2, ?_⟩
    · have := h1.append_right l
      simpa using this
    · rw [List.foldl_cons, List.length_cons]; omega

theorem toggleRanges_spec (l : List Nat) : (toggleRanges l).all.Perm l ∧ (∀ r ∈ (toggleRanges l).otr, r.1 ≤ r.2) ∧
    (toggleRanges l).ot.length + (toggleRanges l).otr.length ≤ l.length := by
  have hp : (sortBy (fun a b => decide (a ≤ b)) l).Perm l := sortBy_perm _ _
  obtain ⟨h1, h2, h3⟩ := rangeFold_spec (sortBy (fun a b => decide (a ≤ b)) l) {} (by simp)
  have h1' : (toggleRanges l).all.Perm (sortBy (fun a b => decide (a ≤ b)) l) := by
    have h0 : ({} : RangeSt).all = [] := rfl
    rw [h0, List.nil_append] at h1
    exact h1
  refine ⟨h1'.trans hp, h2, ?_⟩
  rw [← hp.length_eq]
  simpa [toggleRanges] using h3

end Verif.Delta1
