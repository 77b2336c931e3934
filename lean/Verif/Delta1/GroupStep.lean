import Verif.Delta1.SessionLemmas
/-
What a message does to the entries and to the header groups.
-/
namespace Verif.Delta1
open Verif Verif.Bits Verif.Huff Verif.Delta2

/-- Name and value of an entry. -/
def VE.hdr (ve : VE) : Hdr := (ve.key, ve.val)

/-- There is an entry for the header. -/
def Held (c : Codec) (kv : Hdr) : Prop := ∃ ve ∈ c.store.lru, ve.hdr = kv

/-- The entry for the header is in the group. -/
def InGroup (c : Codec) (g : Nat) (kv : Hdr) : Prop := ∃ ve ∈ c.store.lru, ve.hdr = kv ∧ g ∈ groupsOf ve.hist

theorem InGroup.held {c : Codec} {g : Nat} {kv : Hdr} (h : InGroup c g kv) : Held c kv := by
  obtain ⟨ve, h1, h2, _⟩ := h
  exact ⟨ve, h1, h2⟩

/-- No header has two entries. -/
def Once (c : Codec) : Prop := (c.store.lru.map VE.hdr).Nodup

theorem Once.eq {c : Codec} (h : Once c) {a b : VE} (ha : a ∈ c.store.lru) (hb : b ∈ c.store.lru) (he : a.hdr = b.hdr) : a = b :=
  List.inj_on_of_nodup_map h ha hb he

theorem inGroup_iff {c : Codec} (h : Once c) {ve : VE} (hm : ve ∈ c.store.lru) (g : Nat) : InGroup c g ve.hdr ↔ g ∈ groupsOf ve.hist := by
  constructor
  · rintro ⟨w, h1, h2, h3⟩
    rw [h.eq hm h1 h2.symm]
    exact h3
  · exact fun hg => ⟨ve, hm, rfl, hg⟩

theorem findVal_none {s : Store} {k v : Str} : findVal s k v = none ↔ ¬ ∃ ve ∈ s.lru, ve.hdr = (k, v) := by
  unfold findVal
  rw [List.find?_eq_none]
  simp only [decide_eq_true_eq, not_exists, not_and, VE.hdr, Prod.mk.injEq]

/-! ### Storing -/

theorem popLoop_room {adding : Int} {fuel : Nat} {c c' : Codec} {r : Bool} (hr : c.store.numVals + adding ≤ c.store.maxVals)
    (h : popLoop adding fuel c = .ok (c', r)) : c' = c := by
  cases fuel with
  | zero => cases h
  | succ fuel =>
    rw [popLoop, if_neg (by omega)] at h
    cases h
    rfl

theorem makeSpace_room {space : Nat} {adding : Int} {c c' : Codec} (hr : c.store.numVals + adding ≤ c.store.maxVals)
    (h : makeSpace c space adding = .ok c') : c' = c := by
  simp only [makeSpace, bind, Except.bind] at h
  split at h
  · cases h
  · rename_i v hv
    obtain ⟨c1, r⟩ := v
    have := popLoop_room hr hv
    subst this
    dsimp only at h
    split at h
    · cases h; rfl
    · split at h
      · cases h
      · cases h; rfl

theorem findOrAddKey_room {key : Str} {c c' : Codec} (hr : c.store.numVals ≤ c.store.maxVals) (h : findOrAddKey c key = .ok c') :
    c'.store.lru = c.store.lru ∧ c'.groups = c.groups ∧ c'.store.numVals = c.store.numVals ∧ c'.store.maxVals = c.store.maxVals := by
  unfold findOrAddKey at h
  split at h
  · cases h; exact ⟨rfl, rfl, rfl, rfl⟩
  · simp only [bind, Except.bind] at h
    split at h
    · cases h
    · rename_i c1 h1
      have := makeSpace_room (by omega) h1
      subst this
      split at h
      · cases h
      · rename_i v hv
        obtain ⟨st, i⟩ := v
        simp only [newKE, bind, Except.bind] at hv
        split at hv
        · cases hv
        · cases hv
          dsimp only at h
          split at h
          · cases h
          · cases h
            exact ⟨rfl, rfl, rfl, rfl⟩

theorem insertVal_room {key val : Str} {c c' : Codec} {new : Bool} (hr : c.store.numVals + 1 ≤ c.store.maxVals)
    (h : insertVal c key val = .ok (c', new)) :
    c'.store.lru = c.store.lru ∧ c'.groups = c.groups ∧ (new = true ↔ ¬ Held c (key, val)) := by
  simp only [insertVal, bind, Except.bind] at h
  split at h
  · cases h
  · rename_i c1 h1
    obtain ⟨a1, a2, a3, a4⟩ := findOrAddKey_room (by omega) h1
    split at h
    · rename_i hf
      cases h
      refine ⟨a1, a2, ⟨fun h => absurd h (by simp), fun hn => ?_⟩⟩
      rw [Option.isSome_iff_ne_none] at hf
      refine absurd (findVal_none.2 ?_) hf
      rw [a1]
      exact hn
    · rename_i hf
      obtain ⟨f1, f2, f3, f4⟩ : (refCnt c1.store key 1).lru = c1.store.lru ∧ (refCnt c1.store key 1).numVals = c1.store.numVals ∧
          (refCnt c1.store key 1).maxVals = c1.store.maxVals ∧ True := by
        unfold refCnt
        split <;> exact ⟨rfl, rfl, rfl, trivial⟩
      split at h
      · cases h
      · rename_i c2 h2
        have := makeSpace_room (c := { c1 with store := refCnt c1.store key 1 }) (by dsimp only; omega) h2
        subst this
        cases h
        refine ⟨?_, a2, ⟨fun _ => ?_, fun _ => rfl⟩⟩
        · rw [← a1, ← f1]
          unfold refCnt
          split <;> rfl
        · have : findVal c1.store key val = none := by
            cases hx : findVal c1.store key val with
            | none => rfl
            | some x => rw [hx] at hf; exact absurd rfl hf
          have := findVal_none.1 this
          rw [a1] at this
          exact this

/-- A new entry is put behind the others, in the group; nothing else changes. -/
theorem storeOne_room {gid : Nat} {kv : Hdr} {c c' : Codec} (hi : Inv c) (hr : (c.store.lru.length : Int) + 1 ≤ c.store.maxVals)
    (h : storeOne gid c kv = .ok c') :
    (Held c kv ∧ c'.store.lru = c.store.lru) ∨
      (¬ Held c kv ∧ ∃ i, c'.store.lru = c.store.lru ++ [{ idx := i, key := kv.1, val := kv.2, hist := [.add gid] }]) := by
  simp only [storeOne, bind, Except.bind] at h
  split at h
  · cases h
  · rename_i v hv
    obtain ⟨c1, new⟩ := v
    obtain ⟨s1, s2, s3, s4, s5, s6, s7⟩ := insertVal_spec hi hv
    obtain ⟨r1, r2, r3⟩ := insertVal_room (by rw [hi.cnt]; exact hr) hv
    dsimp only at h
    cases new with
    | false =>
      simp only [Bool.false_eq_true, if_false] at h
      cases h
      have : ¬ ¬ Held c kv := fun hn => by cases r3.2 hn
      exact .inl ⟨not_not.1 this, r1⟩
    | true =>
      refine .inr ⟨r3.1 rfl, ?_⟩
      simp only [if_true] at h
      split at h
      · cases h
      · rename_i w hw
        obtain ⟨c2, i⟩ := w
        obtain ⟨t1, t2, t3, t4, t5, t6⟩ := addToHead_spec (s7 rfl).1 s3 hw
        dsimp only at h
        have hm : { idx := i, key := kv.1, val := kv.2 } ∈ c2.store.lru := by rw [t4]; simp
        obtain ⟨-, -, -, -, -, -, hg, hhg, -⟩ := doToggle_spec t1 h
        have e := doToggle_eq t1 hhg hm
        dsimp only at e
        rw [e] at h
        cases h
        refine ⟨i, ?_⟩
        have hnd := t1.nd
        rw [t4, List.map_append, List.nodup_append] at hnd
        change c2.store.lru.map _ = _
        rw [t4, List.map_append, r1]
        congr 1
        · conv_rhs => rw [← List.map_id c.store.lru]
          apply List.map_congr_left
          intro ve hve
          have : ve.idx ≠ i := by
            have := hnd.2.2 ve.idx (by rw [r1]; exact List.mem_map_of_mem hve) i (by simp)
            exact this
          simp [this]
        · simp [flip, groupsOf]

theorem storeAll_room (gid : Nat) (kvs : List Hdr) : ∀ {c c' : Codec}, Inv c → Once c →
    ((c.store.lru.length + kvs.length : Nat) : Int) ≤ c.store.maxVals → storeAll gid kvs c = .ok c' →
    Once c' ∧ (∀ kv, Held c' kv ↔ Held c kv ∨ kv ∈ kvs) ∧
      (∀ g kv, InGroup c' g kv ↔ InGroup c g kv ∨ (g = gid ∧ kv ∈ kvs ∧ ¬ Held c kv)) ∧
      c.store.lru <+: c'.store.lru := by
  induction kvs with
  | nil =>
    intro c c' hi ho _ h
    cases h
    exact ⟨ho, by simp, by simp, List.prefix_refl _⟩
  | cons x kvs ih =>
    intro c c' hi ho hr h
    simp only [storeAll, bind, Except.bind] at h
    split at h
    · cases h
    · rename_i c1 h1
      rw [List.length_cons] at hr
      push_cast at hr
      obtain ⟨i1, i2, -⟩ := storeOne_spec hi h1
      have hmax : c1.store.maxVals = c.store.maxVals := i2.2.2.1
      rcases storeOne_room hi (by omega) h1 with ⟨hx, hl⟩ | ⟨hx, i, hl⟩
      · have hH : ∀ kv, Held c1 kv ↔ Held c kv := fun kv => by unfold Held; rw [hl]
        have hG : ∀ g kv, InGroup c1 g kv ↔ InGroup c g kv := fun g kv => by unfold InGroup; rw [hl]
        obtain ⟨j1, j2, j3, j4⟩ := ih i1 (by unfold Once; rw [hl]; exact ho) (by rw [hl, hmax]; push_cast; omega) h
        refine ⟨j1, fun kv => ?_, fun g kv => ?_, hl ▸ j4⟩
        · rw [j2, hH, List.mem_cons]
          by_cases he : kv = x
          · subst he; simp [hx]
          · simp [he]
        · rw [j3, hG, hH, List.mem_cons]
          by_cases he : kv = x
          · subst he; simp [hx]
          · simp [he]
      · have hH : ∀ kv, Held c1 kv ↔ Held c kv ∨ kv = x := by
          intro kv
          unfold Held
          rw [hl]
          simp only [List.mem_append, List.mem_singleton, or_and_right, exists_or, exists_eq_left]
          simp only [VE.hdr, Prod.mk.eta]
          exact or_congr Iff.rfl eq_comm
        have hG : ∀ g kv, InGroup c1 g kv ↔ InGroup c g kv ∨ (g = gid ∧ kv = x) := by
          intro g kv
          unfold InGroup
          rw [hl]
          simp only [List.mem_append, List.mem_singleton, or_and_right, exists_or, exists_eq_left]
          simp only [VE.hdr, Prod.mk.eta, groupsOf, List.foldl_cons, List.foldl_nil, groupStep, addSet, List.not_mem_nil, if_false,
            List.nil_append, List.mem_singleton]
          refine or_congr Iff.rfl ?_
          rw [and_comm, eq_comm (a := x)]
        have ho1 : Once c1 := by
          unfold Once
          rw [hl, List.map_append, List.nodup_append]
          refine ⟨ho, by simp, ?_⟩
          intro a ha b hb
          simp only [List.map_cons, List.map_nil, List.mem_singleton] at hb
          subst hb
          rintro rfl
          obtain ⟨ve, hve, he⟩ := List.mem_map.1 ha
          exact hx ⟨ve, hve, he⟩
        obtain ⟨j1, j2, j3, j4⟩ := ih i1 ho1 (by rw [hl, hmax, List.length_append, List.length_singleton]; push_cast; omega) h
        refine ⟨j1, fun kv => ?_, fun g kv => ?_, ?_⟩
        · rw [j2, hH, List.mem_cons, or_assoc]
        · rw [j3, hG, hH, List.mem_cons]
          by_cases he : kv = x
          · subst he; simp [hx]
          · simp [he]
        · exact List.IsPrefix.trans ⟨_, hl.symm⟩ j4

/-! ### Toggling -/

theorem toggledC_hdr (c : Codec) (gid : Nat) (hg S : List Nat) :
    (toggledC c gid hg S).store.lru.map VE.hdr = c.store.lru.map VE.hdr := by
  simp only [toggledC, List.map_map]
  apply List.map_congr_left
  intro ve _
  simp only [Function.comp]
  split <;> rfl

theorem groupsOf_flip (gid : Nat) (ve : VE) (g : Nat) :
    g ∈ groupsOf (flip gid ve).hist ↔ (if g = gid then gid ∉ groupsOf ve.hist else g ∈ groupsOf ve.hist) := by
  unfold flip
  rw [groupsOf_snoc]
  by_cases h : gid ∈ groupsOf ve.hist
  · rw [if_pos h]
    simp only [groupStep, List.mem_filter, decide_eq_true_eq]
    split
    · rename_i he; subst he; simp [h]
    · rename_i he; simp [he]
  · rw [if_neg h]
    simp only [groupStep, mem_addSet]
    split
    · rename_i he; subst he; simp [h]
    · rename_i he; simp [he]

/-- A header is in the group after the toggles if it was and is not toggled, or was not and is; the other groups stay. -/
theorem toggledC_groups {c : Codec} (ho : Once c) (gid : Nat) (hg S : List Nat) :
    Once (toggledC c gid hg S) ∧ (∀ kv, Held (toggledC c gid hg S) kv ↔ Held c kv) ∧
      (∀ g kv, g ≠ gid → (InGroup (toggledC c gid hg S) g kv ↔ InGroup c g kv)) ∧
      ∀ ve ∈ c.store.lru, (InGroup (toggledC c gid hg S) gid ve.hdr ↔ (if ve.idx ∈ S then ¬ InGroup c gid ve.hdr else InGroup c gid ve.hdr)) := by
  have ho' : Once (toggledC c gid hg S) := by unfold Once; rw [toggledC_hdr]; exact ho
  have hmem : ∀ ve, ve ∈ c.store.lru → (if ve.idx ∈ S then flip gid ve else ve) ∈ (toggledC c gid hg S).store.lru := fun ve h =>
    List.mem_map_of_mem (f := fun ve : VE => if ve.idx ∈ S then flip gid ve else ve) h
  have hhdr : ∀ ve : VE, (if ve.idx ∈ S then flip gid ve else ve).hdr = ve.hdr := fun ve => by split <;> rfl
  refine ⟨ho', fun kv => ?_, fun g kv hne => ?_, fun ve hm => ?_⟩
  · have : ∀ c : Codec, Held c kv ↔ kv ∈ c.store.lru.map VE.hdr := fun c => by simp [Held]
    rw [this, this, toggledC_hdr]
  · constructor
    · rintro ⟨w, h1, h2, h3⟩
      obtain ⟨ve, hv, rfl⟩ := List.mem_map.1 h1
      refine ⟨ve, hv, (hhdr ve).symm.trans h2, ?_⟩
      split at h3
      · rwa [groupsOf_flip, if_neg hne] at h3
      · exact h3
    · rintro ⟨ve, hv, h2, h3⟩
      refine ⟨_, hmem ve hv, (hhdr ve).trans h2, ?_⟩
      split
      · rwa [groupsOf_flip, if_neg hne]
      · exact h3
  · have := inGroup_iff ho' (hmem ve hm) gid
    rw [hhdr] at this
    rw [this]
    split
    · rw [groupsOf_flip, if_pos rfl, inGroup_iff ho hm]
    · rw [inGroup_iff ho hm]

/-! ### New numbers -/

/-- The entry gets a new number and goes to the end, and is in one group only: the last of its groups, in the order of the set. -/
theorem renumber_groups {ordG : List GEvent → List Nat} (hG : GroupOrder ordG) {c c' : Codec} (ho : Once c) {gid i : Nat}
    {ve : VE} (hl : lookup c.store i = .ok ve) (hin : gid ∈ groupsOf ve.hist) (hi : Inv c) (h : renumber ordG gid c i = .ok c') :
    ∃ last j, last ∈ groupsOf ve.hist ∧ (ordG ve.hist).getLast? = some last ∧
      c'.store.lru = c.store.lru.filter (·.idx ≠ i) ++ [{ ve with idx := j, hist := ve.hist ++ [.clear, .add last] }] := by
  have hne : ordG ve.hist ≠ [] := by
    intro he
    have := (hG ve.hist).mem_iff.2 hin
    rw [he] at this
    cases this
  obtain ⟨last, hlast⟩ : ∃ last, (ordG ve.hist).getLast? = some last := by
    rw [List.getLast?_eq_some_getLast hne]
    exact ⟨_, rfl⟩
  simp only [renumber, bind, Except.bind, hl, hlast, Option.getD_some] at h
  split at h
  · cases h
  split at h
  · cases h
  rename_i w hw
  obtain ⟨ids, j⟩ := w
  dsimp only at h
  split at h
  · cases h
  cases h
  exact ⟨last, j, (hG ve.hist).mem_iff.1 (List.mem_of_getLast? hlast), hlast, rfl⟩

theorem renumber_step {ordG : List GEvent → List Nat} (hG : GroupOrder ordG) {c c' : Codec} (ho : Once c) {gid i : Nat}
    {ve : VE} (hv : ve ∈ c.store.lru) (hidx : ve.idx = i) (hin : gid ∈ groupsOf ve.hist) (hi : Inv c)
    (h : renumber ordG gid c i = .ok c') :
    Once c' ∧ (∀ kv, Held c' kv ↔ Held c kv) ∧ (∀ g kv, kv ≠ ve.hdr → (InGroup c' g kv ↔ InGroup c g kv)) ∧
      (∃ last, InGroup c last ve.hdr ∧ (ordG ve.hist).getLast? = some last ∧ ∀ g, InGroup c' g ve.hdr ↔ g = last) ∧
      (∀ w ∈ c.store.lru, w.idx ≠ i → w ∈ c'.store.lru) := by
  obtain ⟨last, j, h1, h2, h3⟩ := renumber_groups hG ho (hidx ▸ lookup_ok hi hv) hin hi h
  have hperm : (c'.store.lru.map VE.hdr).Perm (c.store.lru.map VE.hdr) := by
    rw [h3, List.map_append]
    have hp : c.store.lru.Perm (c.store.lru.filter (·.idx ≠ i) ++ [ve]) := by
      have hnd : c.store.lru.Nodup := List.Nodup.of_map _ hi.nd
      refine (List.perm_ext_iff_of_nodup hnd ?_).2 ?_
      · rw [List.nodup_append]
        refine ⟨hnd.filter _, by simp, ?_⟩
        intro a ha b hb
        rw [List.mem_singleton] at hb
        subst hb
        rintro rfl
        have := (List.mem_filter.1 ha).2
        simp [hidx] at this
      · intro a
        simp only [List.mem_append, List.mem_filter, decide_eq_true_eq, List.mem_singleton]
        constructor
        · intro ha
          by_cases he : a.idx = i
          · exact .inr (idx_inj hi ha hv (he.trans hidx.symm))
          · exact .inl ⟨ha, he⟩
        · rintro (⟨ha, _⟩ | rfl)
          · exact ha
          · exact hv
    refine ((hp.map VE.hdr).trans ?_).symm
    rw [List.map_append]
    exact List.Perm.refl _
  have ho' : Once c' := hperm.nodup_iff.2 ho
  refine ⟨ho', fun kv => ?_, fun g kv hne => ?_, ⟨last, (inGroup_iff ho hv _).2 h1, h2, fun g => ?_⟩, fun w hw hne => ?_⟩
  · have : ∀ c : Codec, Held c kv ↔ kv ∈ c.store.lru.map VE.hdr := fun c => by simp [Held]
    rw [this, this, hperm.mem_iff]
  · constructor
    · rintro ⟨w, w1, w2, w3⟩
      rw [h3, List.mem_append, List.mem_singleton] at w1
      rcases w1 with w1 | rfl
      · exact ⟨w, (List.mem_filter.1 w1).1, w2, w3⟩
      · exact absurd w2.symm hne
    · rintro ⟨w, w1, w2, w3⟩
      refine ⟨w, ?_, w2, w3⟩
      rw [h3, List.mem_append, List.mem_filter]
      refine .inl ⟨w1, ?_⟩
      simp only [decide_eq_true_eq]
      intro he
      exact hne ((w2.symm.trans (congrArg VE.hdr (idx_inj hi w1 hv (he.trans hidx.symm)))))
  · have hm : { ve with idx := j, hist := ve.hist ++ [.clear, .add last] } ∈ c'.store.lru := by rw [h3]; simp
    have := inGroup_iff ho' hm g
    rw [groupsOf_renumbered, List.mem_singleton] at this
    exact this
  · rw [h3, List.mem_append, List.mem_filter]
    exact .inl ⟨hw, by simpa using hne⟩

/-- Entries of the group get new numbers: each is in one of its groups then, and the other entries stay. -/
theorem renumberAll_step {ordG : List GEvent → List Nat} (hG : GroupOrder ordG) (gid : Nat) (is : List Nat) : ∀ {c c' : Codec}, Inv c →
    Once c → is.Nodup → (∀ i ∈ is, ∃ ve ∈ c.store.lru, ve.idx = i ∧ gid ∈ groupsOf ve.hist) → renumberAll ordG gid is c = .ok c' →
    Once c' ∧ (∀ kv, Held c' kv ↔ Held c kv) ∧
      ∀ ve ∈ c.store.lru, (ve.idx ∉ is → ∀ g, InGroup c' g ve.hdr ↔ InGroup c g ve.hdr) ∧
        (ve.idx ∈ is → ∃ last, InGroup c last ve.hdr ∧ (ordG ve.hist).getLast? = some last ∧ ∀ g, InGroup c' g ve.hdr ↔ g = last) := by
  induction is with
  | nil =>
    intro c c' _ ho _ _ h
    cases h
    exact ⟨ho, fun _ => Iff.rfl, fun ve _ => ⟨fun _ _ => Iff.rfl, fun h => by cases h⟩⟩
  | cons i is ih =>
    intro c c' hi ho hnd hin h
    rw [List.nodup_cons] at hnd
    simp only [renumberAll, bind, Except.bind] at h
    split at h
    · cases h
    rename_i c1 h1
    obtain ⟨ve, hv, hidx, hg⟩ := hin i (by simp)
    obtain ⟨hg0, hhg⟩ := (hi.hist ve hv gid).1 hg
    obtain ⟨i1, -⟩ := renumber_spec hG hi ⟨hg0, hhg.1, hidx ▸ hhg.2⟩ h1
    obtain ⟨r1, r2, r3, ⟨last, r4, r5, r6⟩, r7⟩ := renumber_step hG ho hv hidx hg hi h1
    have hkeep : ∀ k ∈ is, ∃ w ∈ c.store.lru, w ∈ c1.store.lru ∧ w.idx = k ∧ gid ∈ groupsOf w.hist := by
      intro k hk
      obtain ⟨w, w1, w2, w3⟩ := hin k (by simp [hk])
      have hne : w.idx ≠ i := by rintro he; rw [← he, w2] at hnd; exact hnd.1 hk
      exact ⟨w, w1, r7 w w1 hne, w2, w3⟩
    obtain ⟨j1, j2, j3⟩ := ih i1 r1 hnd.2 (fun k hk => by
      obtain ⟨w, -, w2, w3, w4⟩ := hkeep k hk
      exact ⟨w, w2, w3, w4⟩) h
    refine ⟨j1, fun kv => (j2 kv).trans (r2 kv), fun w hw => ?_⟩
    by_cases he : w.idx = i
    · have hwv : w = ve := idx_inj hi hw hv (he.trans hidx.symm)
      subst hwv
      refine ⟨fun hn => absurd (by simp [he]) hn, fun _ => ?_⟩
      obtain ⟨w', hw', he'⟩ := (r2 w.hdr).2 ⟨w, hw, rfl⟩
      have hni : w'.idx ∉ is := by
        intro hk
        obtain ⟨x, x1, x2, x3, -⟩ := hkeep _ hk
        have hx : x = w' := idx_inj i1 x2 hw' x3
        subst hx
        have := ho.eq x1 hw he'
        subst this
        rw [← he, x3] at hnd
        exact hnd.1 hk
      have := (j3 w' hw').1 hni
      rw [he'] at this
      exact ⟨last, r4, r5, fun g => (this g).trans (r6 g)⟩
    · have hne : w.hdr ≠ ve.hdr := fun hh => he ((ho.eq hw hv hh) ▸ hidx)
      obtain ⟨k1, k2⟩ := j3 w (r7 w hw he)
      refine ⟨fun hn g => ?_, fun hk => ?_⟩
      · rw [k1 (fun hk => hn (by simp [hk])) g, r3 g _ hne]
      · rcases List.mem_cons.1 hk with hk | hk
        · exact absurd hk he
        · obtain ⟨l, l1, l2, l3⟩ := k2 hk
          exact ⟨l, (r3 l _ hne).1 l1, l2, l3⟩

/-- All headers of the group: each is in one of its groups afterwards, the others stay where they are. -/
theorem adjust_step {ordG : List GEvent → List Nat} (hG : GroupOrder ordG) {gid : Nat} {c c' : Codec} (hi : Inv c) (ho : Once c)
    (h : adjust ordG c gid = .ok c') :
    Once c' ∧ (∀ kv, Held c' kv ↔ Held c kv) ∧ (∀ kv, ¬ InGroup c gid kv → ∀ g, InGroup c' g kv ↔ InGroup c g kv) ∧
      ∀ ve ∈ c.store.lru, InGroup c gid ve.hdr →
        ∃ last, InGroup c last ve.hdr ∧ (ordG ve.hist).getLast? = some last ∧ ∀ g, InGroup c' g ve.hdr ↔ g = last := by
  simp only [adjust, bind, Except.bind] at h
  split at h
  · cases h
  rename_i hg hhg
  rw [group_ok] at hhg
  have hiff : ∀ ve ∈ c.store.lru, (ve.idx ∈ hg ↔ InGroup c gid ve.hdr) := by
    intro ve hv
    rw [inGroup_iff ho hv, hi.hist ve hv]
    constructor
    · exact fun h => ⟨hg, hhg, h⟩
    · rintro ⟨hg', h1, h2⟩
      rw [hhg] at h1
      cases h1
      exact h2
  obtain ⟨j1, j2, j3⟩ := renumberAll_step hG gid hg hi ho (asc_nodup (hi.asc gid hg hhg)) (fun i him => by
    obtain ⟨ve, hv, he⟩ := hi.mem gid hg hhg i him
    refine ⟨ve, hv, he, ?_⟩
    rw [← inGroup_iff ho hv, ← hiff ve hv, he]
    exact him) h
  refine ⟨j1, j2, fun kv hn g => ?_, fun ve hv hin => (j3 ve hv).2 ((hiff ve hv).2 hin)⟩
  by_cases hh : Held c kv
  · obtain ⟨ve, hv, rfl⟩ := hh
    exact (j3 ve hv).1 (fun hx => hn ((hiff ve hv).1 hx)) g
  · exact ⟨fun hx => absurd ((j2 kv).1 hx.held) hh, fun hx => absurd hx.held hh⟩

/-! ### A message -/

/-- No entry has the name of a header that is never stored. -/
def NoEref (c : Codec) : Prop := ∀ ve ∈ c.store.lru, isEref ve.hdr = false

/-- What is sent: the entries that are in the group but not in the message, or in the message but not in the group, are toggled; what has no
entry is sent to be stored; the rest is only sent. -/
structure OpsSent (c : Codec) (gid : Nat) (headers : Dict Str Str) (g : Instrs) : Prop where
  toggl : ∀ i, i ∈ g.toggl ↔ ∃ ve ∈ c.store.lru, ve.idx = i ∧ ¬ (InGroup c gid ve.hdr ↔ ve.hdr ∈ headersSet headers)
  stored : ∀ kv, kv ∈ (g.lits.filter Op.isStored).map (litOf c.store) ↔ kv ∈ headersSet headers ∧ isEref kv = false ∧ ¬ Held c kv
  count : ∀ new : List Hdr, (∀ kv ∈ headersSet headers, isEref kv = false → ¬ Held c kv → kv ∈ new) →
    g.clone.length + g.kvsto.length ≤ new.length
  erefs : g.eref.Perm ((headersSet headers).filter isEref)
  once : (g.lits.map (litOf c.store)).Nodup

theorem togOf_iff {c : Codec} (hi : Inv c) (ho : Once c) (kv : Hdr) (i : Nat) :
    togOf c.store kv = some i ↔ isEref kv = false ∧ ∃ ve ∈ c.store.lru, ve.idx = i ∧ ve.hdr = kv := by
  constructor
  · intro h
    obtain ⟨ve, h1, h2, h3⟩ := togOf_some hi h
    refine ⟨?_, ve, h1, h2, ?_⟩
    · unfold togOf at h
      split at h
      · cases h
      · rename_i hn
        simpa using hn
    · rw [← h2, pairOf_mem hi h1] at h3
      exact h3
  · rintro ⟨h1, ve, h2, rfl, rfl⟩
    unfold togOf
    rw [h1, if_neg (by simp)]
    obtain ⟨ke, hke⟩ := has_iff.1 (hi.has ve h2)
    rw [show c.store.keyMap.get? ve.hdr.1 = some ke from hke]
    dsimp only
    cases hf : findVal c.store ve.hdr.1 ve.hdr.2 with
    | none => exact absurd ⟨ve, h2, rfl⟩ (findVal_none.1 hf)
    | some w =>
      have hw : w ∈ c.store.lru := List.mem_of_find?_eq_some hf
      have hp := List.find?_some hf
      simp only [decide_eq_true_eq] at hp
      have : w = ve := ho.eq hw h2 (Prod.ext hp.1 hp.2)
      rw [this]
      rfl

theorem storedOf_iff {c : Codec} (hi : Inv c) (kv : Hdr) :
    ((∃ p, cloneOf c.store kv = some p) ∨ isKvsto c.store kv = true) ↔ isEref kv = false ∧ ¬ Held c kv := by
  unfold cloneOf isKvsto
  cases isEref kv with
  | true => simp
  | false =>
    cases hk : c.store.keyMap.get? kv.1 with
    | none =>
      simp only [Bool.false_eq_true, if_false, reduceCtorEq, exists_const, Bool.not_false, Option.isNone_none, Bool.and_self, or_true,
        true_and, true_iff]
      rintro ⟨ve, hv, rfl⟩
      obtain ⟨ke, hke⟩ := has_iff.1 (hi.has ve hv)
      change c.store.keyMap.get? ve.key = none at hk
      rw [hk] at hke
      cases hke
    | some ke =>
      have := findVal_none (s := c.store) (k := kv.1) (v := kv.2)
      cases hf : findVal c.store kv.1 kv.2 with
      | none =>
        rw [hf] at this
        simpa [Held] using this.1 rfl
      | some w =>
        rw [hf] at this
        have h2 : ¬ ¬ Held c kv := fun hn => by cases this.2 hn
        simp [not_not.1 h2]

theorem storedOf_length (s : Store) (l : List Hdr) : (l.filterMap (cloneOf s)).length + (l.filter (isKvsto s)).length =
    (l.filter fun kv => (cloneOf s kv).isSome || isKvsto s kv).length := by
  induction l with
  | nil => rfl
  | cons kv l ih =>
    have hd : cloneOf s kv = none ∨ isKvsto s kv = false := by
      unfold cloneOf isKvsto
      cases isEref kv with
      | true => exact .inl rfl
      | false => cases s.keyMap.get? kv.1 <;> simp
    rw [List.filterMap_cons, List.filter_cons, List.filter_cons]
    cases hc : cloneOf s kv with
    | none =>
      cases hk : isKvsto s kv <;> simp only [Option.isSome_none, Bool.or_self, Bool.false_or, Bool.false_eq_true, if_false, if_true,
        List.length_cons] <;> omega
    | some x =>
      have hk : isKvsto s kv = false := hd.resolve_left (by rw [hc]; simp)
      simp only [hk, Option.isSome_some, Bool.or_false, Bool.false_eq_true, if_false, if_true, List.length_cons]
      omega

theorem map_filterMap {α β : Type} (f : α → Option β) (g : β → α) (l : List α) (h : ∀ x ∈ l, ∀ y, f x = some y → g y = x) :
    (l.filterMap f).map g = l.filter fun x => (f x).isSome := by
  induction l with
  | nil => rfl
  | cons x l ih =>
    have ih := ih (fun y hy => h y (by simp [hy]))
    rw [List.filterMap_cons, List.filter_cons]
    cases hf : f x with
    | none => simpa using ih
    | some y => simp [h x (by simp) y hf, ih]

theorem makeInstructions_sends {c : Codec} (hi : Inv c) (ho : Once c) (hne : NoEref c) {gid : Nat} {hg : List Nat}
    (hhg : c.groups.get? gid = some hg) {o : Orders} (hor : o.Ok) {headers : Dict Str Str}
    (hst : ∀ x ∈ headersSet headers, x.1 ≠ c.store.staticKey) {g : Instrs} (h : makeInstructions o c headers gid = .ok g) :
    OpsSent c gid headers g := by
  have hasc := hi.asc gid hg hhg
  have hin : ∀ i ∈ o.hg hg, ∃ ve ∈ c.store.lru, ve.idx = i := fun i h => hi.mem gid hg hhg i ((hor.hg hg).mem_iff.1 h)
  obtain ⟨hs, done, e, k1, k2, k3, -, k5, k6, k7⟩ := hgLoop_spec hi (o.hg hg) hin
    ((hor.hg hg).nodup_iff.2 (asc_nodup hasc)) (nodup_headersSet headers) (done := []) (by simp) List.nodup_nil
  simp only [makeInstructions, bind, Except.bind, group_ok.2 hhg, e, foldl_makeOne, List.nil_append, pure, Except.pure,
    Except.ok.injEq] at h
  subst h
  have hgrp : ∀ ve ∈ c.store.lru, (ve.idx ∈ hg ↔ InGroup c gid ve.hdr) := by
    intro ve hv
    rw [inGroup_iff ho hv, hi.hist ve hv]
    constructor
    · exact fun h => ⟨hg, hhg, h⟩
    · rintro ⟨hg', h1, h2⟩
      rw [hhg] at h1
      cases h1
      exact h2
  have hgx : ∀ x, (∃ i ∈ o.hg hg, pairOf c.store i = x) ↔ InGroup c gid x := by
    intro x
    constructor
    · rintro ⟨i, him, rfl⟩
      obtain ⟨ve, hv, rfl⟩ := hin i him
      rw [pairOf_mem hi hv]
      exact (hgrp ve hv).1 ((hor.hg hg).mem_iff.1 him)
    · rintro hx
      obtain ⟨ve, hv, rfl, -⟩ := id hx
      exact ⟨ve.idx, (hor.hg hg).mem_iff.2 ((hgrp ve hv).2 hx), pairOf_mem hi hv⟩
  have hhs : ∀ x, x ∈ hs ↔ x ∈ headersSet headers ∧ ¬ InGroup c gid x := by
    intro x
    rw [k3, ← hgx]
    simp
  have hdone : ∀ ve ∈ c.store.lru, (ve.idx ∈ done ↔ InGroup c gid ve.hdr ∧ ve.hdr ∉ headersSet headers) := by
    intro ve hv
    have h6 := k6 ve.hdr
    rw [hgx] at h6
    have huniq : ∀ i ∈ o.hg hg, pairOf c.store i = ve.hdr → i = ve.idx := by
      intro i him hp
      obtain ⟨w, hw, rfl⟩ := hin i him
      rw [pairOf_mem hi hw] at hp
      rw [ho.eq hw hv hp]
    constructor
    · intro hd
      have hig : InGroup c gid ve.hdr := by
        rcases k5 _ hd with hd | hd
        · cases hd
        · exact (hgrp ve hv).1 ((hor.hg hg).mem_iff.1 hd)
      refine ⟨hig, fun hm => ?_⟩
      obtain ⟨i, h1, h2, h3⟩ := h6.2 ⟨hm, hig⟩
      rw [huniq i h1 h3] at h2
      exact h2 hd
    · rintro ⟨hig, hm⟩
      by_contra hd
      exact hm (h6.1 ⟨ve.idx, (hor.hg hg).mem_iff.2 ((hgrp ve hv).2 hig), hd, pairOf_mem hi hv⟩).1
  refine ⟨fun i => ?_, fun kv => ?_, ?_, ?_, ?_⟩
  · rw [(hor.toggl _).mem_iff, mem_addAll, mem_addAll]
    simp only [List.not_mem_nil, false_or, List.mem_filterMap, (hor.hset hs).mem_iff, togOf_iff hi ho]
    constructor
    · rintro (⟨kv, h1, h2, ve, hv, rfl, rfl⟩ | hd)
      · have := (hhs _).1 h1
        exact ⟨ve, hv, rfl, fun hx => this.2 (hx.2 this.1)⟩
      · obtain ⟨ve, hv, rfl⟩ : ∃ ve ∈ c.store.lru, ve.idx = i := by
          rcases k5 _ hd with h | h
          · cases h
          · exact hin i h
        have := (hdone ve hv).1 hd
        exact ⟨ve, hv, rfl, fun hx => this.2 (hx.1 this.1)⟩
    · rintro ⟨ve, hv, rfl, hx⟩
      by_cases hig : InGroup c gid ve.hdr
      · exact .inr ((hdone ve hv).2 ⟨hig, fun hm => hx ⟨fun _ => hm, fun _ => hig⟩⟩)
      · refine .inl ⟨ve.hdr, (hhs _).2 ⟨?_, hig⟩, hne ve hv, ve, hv, rfl, rfl⟩
        by_contra hm
        exact hx ⟨fun h => absurd h hig, fun h => absurd h hm⟩
  · have hmem : kv ∈ ((Instrs.lits ⟨o.toggl (done.foldl addSet (((o.hset hs).filterMap (togOf c.store)).foldl addSet [])),
        (o.hset hs).filterMap (cloneOf c.store), (o.hset hs).filter (isKvsto c.store), (o.hset hs).filter isEref⟩).filter
          Op.isStored).map (litOf c.store) ↔ kv ∈ hs ∧ ((∃ p, cloneOf c.store kv = some p) ∨ isKvsto c.store kv = true) := by
      simp only [Instrs.lits, List.mem_map, List.mem_filter, List.mem_append, List.mem_filterMap, (hor.hset hs).mem_iff]
      constructor
      · rintro ⟨op, ⟨(⟨p, ⟨x, hx, hp⟩, rfl⟩ | ⟨x, ⟨hx, hp⟩, rfl⟩) | ⟨x, hx, rfl⟩, hs'⟩, rfl⟩
        · obtain ⟨ke, hke, rfl⟩ := cloneOf_some hp
          obtain ⟨-, h2⟩ := hi.key x.1 ke hke (hst x ((hhs x).1 hx).1)
          have : litOf c.store (Op.clone ke.idx x.2) = x := by simp [litOf, h2]
          rw [this]
          exact ⟨hx, .inl ⟨_, hp⟩⟩
        · exact ⟨hx, .inr hp⟩
        · cases hs'
      · rintro ⟨hx, ⟨p, hp⟩ | hp⟩
        · obtain ⟨ke, hke, rfl⟩ := cloneOf_some hp
          obtain ⟨-, h2⟩ := hi.key kv.1 ke hke (hst kv ((hhs kv).1 hx).1)
          exact ⟨_, ⟨.inl (.inl ⟨_, ⟨kv, hx, hp⟩, rfl⟩), rfl⟩, by simp [litOf, h2]⟩
        · exact ⟨_, ⟨.inl (.inr ⟨kv, ⟨hx, hp⟩, rfl⟩), rfl⟩, rfl⟩
    rw [hmem, storedOf_iff hi, hhs]
    constructor
    · rintro ⟨⟨h1, -⟩, h2, h3⟩
      exact ⟨h1, h2, h3⟩
    · rintro ⟨h1, h2, h3⟩
      exact ⟨⟨h1, fun hx => h3 hx.held⟩, h2, h3⟩
  · intro new hnew
    dsimp only
    rw [storedOf_length]
    have hnd : (o.hset hs).Nodup := (hor.hset hs).nodup_iff.2 k1
    refine (List.subperm_of_subset (hnd.filter _) fun kv hkv => ?_).length_le
    rw [List.mem_filter, (hor.hset hs).mem_iff, Bool.or_eq_true, Option.isSome_iff_exists, storedOf_iff hi] at hkv
    exact hnew kv ((hhs kv).1 hkv.1).1 hkv.2.1 hkv.2.2
  · refine ((hor.hset hs).filter _).trans ?_
    refine (List.perm_ext_iff_of_nodup (k1.filter _) ((nodup_headersSet headers).filter _)).2 fun x => ?_
    simp only [List.mem_filter, hhs]
    constructor
    · rintro ⟨⟨h1, -⟩, h2⟩
      exact ⟨h1, h2⟩
    · rintro ⟨h1, h2⟩
      refine ⟨⟨h1, ?_⟩, h2⟩
      rintro ⟨ve, hv, rfl, -⟩
      rw [hne ve hv] at h2
      cases h2
  · have hnd : (o.hset hs).Nodup := (hor.hset hs).nodup_iff.2 k1
    simp only [Instrs.lits, List.map_append, List.map_map]
    have e1 : ((o.hset hs).filterMap (cloneOf c.store)).map (litOf c.store ∘ fun x => Op.clone x.1 x.2) =
        (o.hset hs).filter fun x => (cloneOf c.store x).isSome := by
      refine map_filterMap _ _ _ fun x hx y hy => ?_
      obtain ⟨ke, hke, rfl⟩ := cloneOf_some hy
      obtain ⟨-, h2⟩ := hi.key x.1 ke hke (hst x ((hhs x).1 ((hor.hset hs).mem_iff.1 hx)).1)
      simp [litOf, h2]
    have e2 : ∀ l : List Hdr, l.map (litOf c.store ∘ fun x => Op.kvsto x.1 x.2) = l := fun l => by
      conv_rhs => rw [← List.map_id l]
      rfl
    have e3 : ∀ l : List Hdr, l.map (litOf c.store ∘ fun x => Op.eref x.1 x.2) = l := fun l => by
      conv_rhs => rw [← List.map_id l]
      rfl
    rw [e1, e2, e3, List.nodup_append, List.nodup_append]
    have hcl : ∀ x, (cloneOf c.store x).isSome = true → isEref x = false ∧ isKvsto c.store x = false := by
      intro x
      unfold cloneOf isKvsto
      cases isEref x with
      | true => simp
      | false => cases c.store.keyMap.get? x.1 <;> simp
    have hkv : ∀ x, isKvsto c.store x = true → isEref x = false := by
      intro x
      unfold isKvsto
      cases isEref x <;> simp
    refine ⟨⟨hnd.filter _, hnd.filter _, fun a ha b hb => ?_⟩, hnd.filter _, fun a ha b hb => ?_⟩
    · rintro rfl
      rw [List.mem_filter] at ha hb
      have := (hcl a ha.2).2
      rw [hb.2] at this
      cases this
    · rintro rfl
      rw [List.mem_append, List.mem_filter, List.mem_filter] at ha
      rw [List.mem_filter] at hb
      have : isEref a = false := ha.elim (fun h => (hcl a h.2).1) fun h => hkv a h.2
      rw [hb.2] at this
      cases this

/-- What a message does if there is room for its headers. -/
structure GroupStep (ordG : List GEvent → List Nat) (c c' : Codec) (gid : Nat) (headers : Dict Str Str) : Prop where
  once : Once c'
  noEref : NoEref c'
  held : ∀ kv, Held c' kv ↔ Held c kv ∨ (kv ∈ headersSet headers ∧ isEref kv = false)
  rest : ∀ kv, ¬ (kv ∈ headersSet headers ∧ isEref kv = false) → ∀ g, InGroup c' g kv ↔ g ≠ gid ∧ InGroup c g kv
  sent : ∀ kv ∈ headersSet headers, isEref kv = false → ∃ last, (last = gid ∨ InGroup c last kv) ∧ ∀ g, InGroup c' g kv ↔ g = last

theorem message_groups {ordG : List GEvent → List Nat} (hG : GroupOrder ordG) {o : Orders} (hor : o.Ok) {c c' : Codec} (hi : Inv c)
    (ho : Once c) (hne : NoEref c) {headers : Dict Str Str} (hst : ∀ x ∈ headersSet headers, x.1 ≠ c.store.staticKey) {gid : Nat}
    (new : List Hdr) (hnew : ∀ kv ∈ headersSet headers, isEref kv = false → ¬ Held c kv → kv ∈ new)
    (hroom : ((c.store.lru.length + new.length : Nat) : Int) ≤ c.store.maxVals) {g : Instrs}
    (h : makeOperations ordG o c headers gid = .ok (c', g)) :
    OpsSent c gid headers g ∧ GroupStep ordG c c' gid headers := by
  obtain ⟨i1, i2, i3, ⟨hg, hhg⟩, i5⟩ := findOrMake_inv hi gid
  obtain ⟨g', e1, hm⟩ := makeInstructions_spec i1 hhg hor (headers := headers) (by rw [i3]; exact hst)
  have hmo : Once (findOrMake c gid) := by unfold Once; rw [i3]; exact ho
  have hmn : NoEref (findOrMake c gid) := by unfold NoEref; rw [i3]; exact hne
  have hH : ∀ kv, Held (findOrMake c gid) kv ↔ Held c kv := fun kv => by unfold Held; rw [i3]
  have hI : ∀ g kv, InGroup (findOrMake c gid) g kv ↔ InGroup c g kv := fun g kv => by unfold InGroup; rw [i3]
  have hsends := makeInstructions_sends i1 hmo hmn hhg hor (headers := headers) (by rw [i3]; exact hst) e1
  simp only [makeOperations, bind, Except.bind, e1] at h
  have hasc := i1.asc gid hg hhg
  have htt : (g'.toggl.map Op.toggl).flatMap Op.toggled = g'.toggl := by
    rw [List.flatMap_map]
    simp [Op.toggled]
  have hC := execute_eq i1 hhg hor.onC (g'.toggl.map .toggl) g'.lits (by simp [Op.isToggle]) (lits_isToggle g')
    (fun k v hkv => (hm.key k v hkv).2) (by rw [htt]; exact hm.nd) (by rw [htt]; exact hm.mem)
  rw [← ops_flat, htt] at hC
  rw [hC] at h
  cases hs : storeAll gid ((g'.lits.filter Op.isStored).map (litOf (findOrMake c gid).store))
      (toggledC (findOrMake c gid) gid hg g'.toggl) with
  | error e =>
    rw [hs] at h
    simp [Except.map] at h
  | ok c1 =>
    rw [hs] at h
    simp only [Except.map] at h
    split at h
    · cases h
    rename_i c2 ha
    simp only [pure, Except.pure, Except.ok.injEq, Prod.mk.injEq] at h
    obtain ⟨rfl, rfl⟩ := h
    obtain ⟨t1, t2, t3⟩ := toggledC_inv i1 g'.toggl hhg hm.nd hm.mem
    obtain ⟨u1, u2, u3, u4⟩ := toggledC_groups hmo gid hg g'.toggl
    obtain ⟨s1, s2, s3, s4, s5⟩ := storeAll_spec gid _ t1 hs
    obtain ⟨v1, v2, v3, v4⟩ := storeAll_room gid _ t1 u1 (by
      rw [t3, i3, List.length_map, lits_stored, t2.2.2.1, i3]
      have := hsends.count new (fun kv h1 h2 h3 => hnew kv h1 h2 (fun hk => h3 ((hH kv).2 hk)))
      push_cast at hroom ⊢
      omega) hs
    obtain ⟨a1, a2, a3, a4⟩ := adjust_step hG s1 v1 ha
    have hst' : ∀ kv, kv ∈ (g'.lits.filter Op.isStored).map (litOf (findOrMake c gid).store) ↔
        kv ∈ headersSet headers ∧ isEref kv = false ∧ ¬ Held c kv := fun kv => by rw [hsends.stored, hH]
    have hheld : ∀ kv, Held c2 kv ↔ Held c kv ∨ (kv ∈ headersSet headers ∧ isEref kv = false) := by
      intro kv
      rw [a2, v2, u2, hH, hst']
      constructor
      · rintro (h | ⟨h1, h2, -⟩)
        · exact .inl h
        · exact .inr ⟨h1, h2⟩
      · rintro (h | ⟨h1, h2⟩)
        · exact .inl h
        · by_cases hk : Held c kv
          · exact .inl hk
          · exact .inr ⟨h1, h2, hk⟩
    have hno : ∀ kv, Held c kv → isEref kv = false := by
      rintro kv ⟨ve, hv, rfl⟩
      exact hne ve hv
    -- the group before the numbers change
    have hgid : ∀ kv, InGroup c1 gid kv ↔ kv ∈ headersSet headers ∧ isEref kv = false := by
      intro kv
      rw [v3, u2, hH, hst']
      by_cases hk : Held c kv
      · obtain ⟨ve, hv, rfl⟩ := id hk
        have h4 := u4 ve (by rw [i3]; exact hv)
        rw [h4]
        have ht := hsends.toggl ve.idx
        have ht' : ve.idx ∈ g'.toggl ↔ ¬ (InGroup c gid ve.hdr ↔ ve.hdr ∈ headersSet headers) := by
          rw [ht]
          constructor
          · rintro ⟨w, w1, w2, w3⟩
            have : w = ve := idx_inj i1 w1 (by rw [i3]; exact hv) w2
            rw [hI, this] at w3
            exact w3
          · exact fun hx => ⟨ve, by rw [i3]; exact hv, rfl, by rw [hI]; exact hx⟩
        have hn := hno _ hk
        simp only [hI, hk, not_true, and_false, or_false, hn, and_true]
        by_cases hx : InGroup c gid ve.hdr <;> by_cases hy : ve.hdr ∈ headersSet headers <;> simp [ht', hx, hy]
      · have : ¬ InGroup (toggledC (findOrMake c gid) gid hg g'.toggl) gid kv := fun hx => hk ((hH kv).1 ((u2 kv).1 hx.held))
        simp [this, hk]
    have hoth : ∀ g kv, g ≠ gid → (InGroup c1 g kv ↔ InGroup c g kv) := by
      intro g kv hgne
      rw [v3, u3 g kv hgne, hI]
      simp [hgne]
    refine ⟨⟨fun i => by rw [hsends.toggl]; simp only [i3, hI], fun kv => by
        rw [← i3, hst'],
      fun new hn => hsends.count new (fun kv h1 h2 h3 => hn kv h1 h2 (fun hk => h3 ((hH kv).2 hk))), hsends.erefs,
      by rw [← i3]; exact hsends.once⟩, ⟨a1, ?_, hheld, fun kv hn g => ?_, fun kv hk he => ?_⟩⟩
    · intro ve hv
      rcases (hheld ve.hdr).1 ⟨ve, hv, rfl⟩ with h | h
      · exact hno _ h
      · exact h.2
    · rw [a3 kv (fun hx => hn ((hgid kv).1 hx))]
      by_cases hgg : g = gid
      · subst hgg
        simp only [ne_eq, not_true, false_and, iff_false]
        exact fun hx => hn ((hgid kv).1 hx)
      · rw [hoth g kv hgg]
        simp [hgg]
    · have hx := (hgid kv).2 ⟨hk, he⟩
      obtain ⟨ve, hv, rfl⟩ := hx.held
      obtain ⟨last, l1, -, l3⟩ := a4 ve hv hx
      refine ⟨last, ?_, l3⟩
      by_cases hl : last = gid
      · exact .inl hl
      · exact .inr ((hoth last _ hl).1 l1)

/-! ### Without room -/

theorem insertVal_new {key val : Str} {c c' : Codec} (hi : Inv c) (h : insertVal c key val = .ok (c', true)) : ¬ Held c' (key, val) := by
  simp only [insertVal, bind, Except.bind] at h
  split at h
  · cases h
  · rename_i c1 h1
    obtain ⟨i1, i2, i3, i4, -, -⟩ := findOrAddKey_spec hi h1
    split at h
    · simp [pure, Except.pure] at h
    · rename_i hf
      have hn : findVal c1.store key val = none := by
        cases hx : findVal c1.store key val with
        | none => rfl
        | some x => rw [hx] at hf; exact absurd rfl hf
      have hn := findVal_none.1 hn
      split at h
      · cases h
      · rename_i c2 h2
        obtain ⟨-, -, -, ⟨n, hd⟩, -⟩ := makeSpace_spec (refCnt_inv i1 key 1).1 h2
        have hl : c'.store.lru = c2.store.lru := by
          simp only [pure, Except.pure, Except.ok.injEq, Prod.mk.injEq] at h
          obtain ⟨rfl, -⟩ := h
          unfold refCnt
          split <;> rfl
        have hr : (refCnt c1.store key 1).lru = c1.store.lru := by
          unfold refCnt
          split <;> rfl
        rintro ⟨ve, hv, he⟩
        rw [hl, hd] at hv
        have := List.mem_of_mem_drop hv
        dsimp only at this
        rw [hr] at this
        exact hn ⟨ve, this, he⟩

theorem storeOne_once {gid : Nat} {kv : Hdr} {c c' : Codec} (hi : Inv c) (ho : Once c) (h : storeOne gid c kv = .ok c') :
    Once c' ∧ ∀ x, Held c' x → Held c x ∨ x = kv := by
  simp only [storeOne, bind, Except.bind] at h
  split at h
  · cases h
  · rename_i v hv
    obtain ⟨c1, new⟩ := v
    obtain ⟨s1, s2, s3, ⟨n, s4⟩, s5, s6, s7⟩ := insertVal_spec hi hv
    have o1 : Once c1 := by
      unfold Once
      rw [s4, List.map_drop]
      exact ho.sublist (List.drop_sublist _ _)
    have h1 : ∀ x, Held c1 x → Held c x := by
      rintro x ⟨ve, hv, rfl⟩
      rw [s4] at hv
      exact ⟨ve, List.mem_of_mem_drop hv, rfl⟩
    dsimp only at h
    cases new with
    | false =>
      simp only [Bool.false_eq_true, if_false] at h
      cases h
      exact ⟨o1, fun x hx => .inl (h1 x hx)⟩
    | true =>
      have hnew := insertVal_new hi hv
      simp only [if_true] at h
      split at h
      · cases h
      · rename_i w hw
        obtain ⟨c2, i⟩ := w
        obtain ⟨t1, t2, t3, t4, t5, t6⟩ := addToHead_spec (s7 rfl).1 s3 hw
        dsimp only at h
        have hm : { idx := i, key := kv.1, val := kv.2 } ∈ c2.store.lru := by rw [t4]; simp
        obtain ⟨-, -, -, -, -, -, hg, hhg, -⟩ := doToggle_spec t1 h
        have e := doToggle_eq t1 hhg hm
        dsimp only at e
        rw [e] at h
        cases h
        have hh : (toggledC c2 gid hg [i]).store.lru.map VE.hdr = c1.store.lru.map VE.hdr ++ [kv] := by
          rw [toggledC_hdr, t4, List.map_append]
          rfl
        have hx : ∀ (c : Codec) x, Held c x ↔ x ∈ c.store.lru.map VE.hdr := by
          intro c x
          simp [Held]
        refine ⟨?_, fun x h => ?_⟩
        · unfold Once
          rw [hh, List.nodup_append]
          refine ⟨o1, by simp, ?_⟩
          intro a ha b hb
          rw [List.mem_singleton] at hb
          rintro rfl
          rw [hb] at ha
          exact hnew ((hx c1 kv).2 ha)
        · rw [hx, hh, List.mem_append, List.mem_singleton, ← hx] at h
          exact h.imp (h1 x) id

theorem storeAll_once (gid : Nat) (kvs : List Hdr) : ∀ {c c' : Codec}, Inv c → Once c → storeAll gid kvs c = .ok c' →
    Once c' ∧ ∀ x, Held c' x → Held c x ∨ x ∈ kvs := by
  induction kvs with
  | nil =>
    intro c c' _ ho h
    cases h
    exact ⟨ho, fun x hx => .inl hx⟩
  | cons y kvs ih =>
    intro c c' hi ho h
    simp only [storeAll, bind, Except.bind] at h
    split at h
    · cases h
    · rename_i c1 h1
      obtain ⟨o1, o2⟩ := storeOne_once hi ho h1
      obtain ⟨p1, p2⟩ := ih (storeOne_spec hi h1).1 o1 h
      refine ⟨p1, fun x hx => ?_⟩
      rcases p2 x hx with hx | hx
      · rcases o2 x hx with hx | rfl
        · exact .inl hx
        · exact .inr (by simp)
      · exact .inr (by simp [hx])

theorem message_once {ordG : List GEvent → List Nat} (hG : GroupOrder ordG) {o : Orders} (hor : o.Ok) {c c' : Codec} (hi : Inv c)
    (ho : Once c) (hne : NoEref c) {headers : Dict Str Str} (hst : ∀ x ∈ headersSet headers, x.1 ≠ c.store.staticKey) {gid : Nat}
    {g : Instrs} (h : makeOperations ordG o c headers gid = .ok (c', g)) : OpsSent c gid headers g ∧ Once c' ∧ NoEref c' ∧
      ∀ kv, Held c' kv → Held c kv ∨ (kv ∈ headersSet headers ∧ isEref kv = false) := by
  obtain ⟨i1, i2, i3, ⟨hg, hhg⟩, i5⟩ := findOrMake_inv hi gid
  obtain ⟨g', e1, hm⟩ := makeInstructions_spec i1 hhg hor (headers := headers) (by rw [i3]; exact hst)
  have hmo : Once (findOrMake c gid) := by unfold Once; rw [i3]; exact ho
  have hmn : NoEref (findOrMake c gid) := by unfold NoEref; rw [i3]; exact hne
  have hH : ∀ kv, Held (findOrMake c gid) kv ↔ Held c kv := fun kv => by unfold Held; rw [i3]
  have hI : ∀ g kv, InGroup (findOrMake c gid) g kv ↔ InGroup c g kv := fun g kv => by unfold InGroup; rw [i3]
  have hsends := makeInstructions_sends i1 hmo hmn hhg hor (headers := headers) (by rw [i3]; exact hst) e1
  simp only [makeOperations, bind, Except.bind, e1] at h
  have htt : (g'.toggl.map Op.toggl).flatMap Op.toggled = g'.toggl := by
    rw [List.flatMap_map]
    simp [Op.toggled]
  have hC := execute_eq i1 hhg hor.onC (g'.toggl.map .toggl) g'.lits (by simp [Op.isToggle]) (lits_isToggle g')
    (fun k v hkv => (hm.key k v hkv).2) (by rw [htt]; exact hm.nd) (by rw [htt]; exact hm.mem)
  rw [← ops_flat, htt] at hC
  rw [hC] at h
  cases hs : storeAll gid ((g'.lits.filter Op.isStored).map (litOf (findOrMake c gid).store))
      (toggledC (findOrMake c gid) gid hg g'.toggl) with
  | error e =>
    rw [hs] at h
    simp [Except.map] at h
  | ok c1 =>
    rw [hs] at h
    simp only [Except.map] at h
    split at h
    · cases h
    rename_i c2 ha
    simp only [pure, Except.pure, Except.ok.injEq, Prod.mk.injEq] at h
    obtain ⟨rfl, rfl⟩ := h
    obtain ⟨t1, t2, t3⟩ := toggledC_inv i1 g'.toggl hhg hm.nd hm.mem
    obtain ⟨u1, u2, u3, u4⟩ := toggledC_groups hmo gid hg g'.toggl
    obtain ⟨s1, s2, s3, s4, s5⟩ := storeAll_spec gid _ t1 hs
    obtain ⟨v1, v2⟩ := storeAll_once gid _ t1 u1 hs
    obtain ⟨a1, a2, a3, a4⟩ := adjust_step hG s1 v1 ha
    have hheld : ∀ kv, Held c2 kv → Held c kv ∨ (kv ∈ headersSet headers ∧ isEref kv = false) := by
      intro kv hk
      rcases v2 kv ((a2 kv).1 hk) with hk | hk
      · exact .inl ((hH kv).1 ((u2 kv).1 hk))
      · have := (hsends.stored kv).1 hk
        exact .inr ⟨this.1, this.2.1⟩
    refine ⟨⟨fun i => by rw [hsends.toggl]; simp only [i3, hI], fun kv => by
        rw [← i3, hsends.stored, hH],
      fun new hn => hsends.count new (fun kv h1 h2 h3 => hn kv h1 h2 (fun hk => h3 ((hH kv).2 hk))), hsends.erefs,
      by rw [← i3]; exact hsends.once⟩, a1, ?_, hheld⟩
    intro ve hv
    rcases hheld ve.hdr ⟨ve, hv, rfl⟩ with h | h
    · obtain ⟨w, hw, he⟩ := h
      rw [← he]
      exact hne w hw
    · exact h.2

/-! ### The frame -/

theorem payloadB_nil {codes : List (List Bool)} {gs : List (Opcode × List Op)} :
    (payloadB codes gs).length < 8 ↔ ∀ g ∈ gs, g.2 = [] := by
  induction gs with
  | nil => simp [payloadB]
  | cons g gs ih =>
    simp only [payloadB, List.flatMap_cons, List.length_append, List.mem_cons, forall_eq_or_imp] at ih ⊢
    rw [← ih]
    cases hg : g.2 with
    | nil =>
      have : blockB codes g = [] := by unfold blockB; rw [hg]; rfl
      simp [this]
    | cons op ops =>
      have : 16 ≤ (blockB codes g).length := by
        unfold blockB
        rw [hg, if_neg (by simp)]
        simp only [List.length_append, natBits_length]
        omega
      simp only [reduceCtorEq, false_and, iff_false]
      omega

theorem groups_nil (g : Instrs) : (∀ b ∈ g.groups, b.2 = []) ↔ g.toggl = [] ∧ g.clone = [] ∧ g.kvsto = [] ∧ g.eref = [] := by
  have ht : (toggleRanges g.toggl).ot = [] ∧ (toggleRanges g.toggl).otr = [] ↔ g.toggl = [] := by
    obtain ⟨h1, h2, h3⟩ := toggleRanges_spec g.toggl
    constructor
    · rintro ⟨e1, e2⟩
      have : (toggleRanges g.toggl).all = [] := by simp [RangeSt.all, e1, e2]
      rw [this] at h1
      exact h1.nil_eq.symm
    · intro e
      rw [e] at h3 ⊢
      simp only [List.length_nil, Nat.le_zero, Nat.add_eq_zero_iff, List.length_eq_zero_iff] at h3
      exact h3
  simp only [Instrs.groups, List.mem_cons, List.not_mem_nil, or_false, forall_eq_or_imp, forall_eq, List.map_eq_nil_iff]
  rw [← ht]
  tauto

/-- Nothing but the head of the frame is sent if and only if the group has exactly the headers of the message. -/
theorem OpsSent.none {c : Codec} (hne : NoEref c) {gid : Nat} {headers : Dict Str Str} {g : Instrs} (h : OpsSent c gid headers g) :
    (∀ b ∈ g.groups, b.2 = []) ↔ ∀ kv, kv ∈ headersSet headers ↔ InGroup c gid kv := by
  rw [groups_nil]
  have hst : g.clone = [] ∧ g.kvsto = [] ↔ ∀ kv ∈ headersSet headers, isEref kv = false → Held c kv := by
    have hl := lits_stored g
    have : g.clone = [] ∧ g.kvsto = [] ↔ (g.lits.filter Op.isStored).map (litOf c.store) = [] := by
      rw [← List.length_eq_zero_iff, ← List.length_eq_zero_iff, ← List.length_eq_zero_iff, List.length_map, hl]
      omega
    rw [this, List.eq_nil_iff_forall_not_mem]
    simp only [h.stored, not_and, not_not]
  have her : g.eref = [] ↔ ∀ kv ∈ headersSet headers, isEref kv = false := by
    rw [← List.length_eq_zero_iff, h.erefs.length_eq, List.length_eq_zero_iff, List.filter_eq_nil_iff]
    simp
  have htg : g.toggl = [] ↔ ∀ ve ∈ c.store.lru, (InGroup c gid ve.hdr ↔ ve.hdr ∈ headersSet headers) := by
    rw [List.eq_nil_iff_forall_not_mem]
    simp only [h.toggl, not_exists, not_and, not_not]
    exact ⟨fun h ve hv => h ve.idx ve hv rfl, fun h i ve hv _ => h ve hv⟩
  rw [htg, her, ← and_assoc, ← and_assoc, and_assoc (a := ∀ ve ∈ c.store.lru, _), hst]
  constructor
  · rintro ⟨⟨h1, h2⟩, h3⟩ kv
    constructor
    · intro hk
      obtain ⟨ve, hv, rfl⟩ := h2 kv hk (h3 kv hk)
      exact (h1 ve hv).2 hk
    · intro hk
      obtain ⟨ve, hv, rfl⟩ := hk.held
      exact (h1 ve hv).1 hk
  · intro h1
    refine ⟨⟨fun ve hv => (h1 _).symm, fun kv hk _ => ((h1 kv).1 hk).held⟩, fun kv hk => ?_⟩
    obtain ⟨ve, hv, rfl, -⟩ := (h1 kv).1 hk
    exact hne ve hv

/-- The state of a compressor on which messages are sent. -/
structure Ready (u : Setup) (c : Compressor) : Prop where
  inv : Inv c.codec
  key : c.codec.store.staticKey = u.staticKey
  hosts : HostsOk c
  few : ∀ g, glen c.codec g ≤ 128
  once : Once c.codec
  noEref : NoEref c.codec
  max : c.codec.store.maxVals = u.cfg.maxEntries

theorem groupOf_after (u : Setup) (c : Compressor) (host : Str) :
    (groupOf u c host).1.hosts.get? (u.norm host) = some (groupOf u c host).2 := by
  unfold groupOf
  split
  · assumption
  · dsimp only
    rw [Dict.get?_set, if_pos rfl]

theorem compress_groups {u : Setup} (hG : GroupOrder u.ordG) {codes : List (List Bool)} (hc : Codes u.huffman codes)
    (h257 : codes.length = 257) {c c' : Compressor} (hr : Ready u c) {m : Message} (hm : MessageOk u m) {blob : Str}
    (h : compress u c m = .ok (c', blob)) :
    Ready u c' ∧ ∃ gid, gid = (groupOf u c m.host).2 ∧ c'.hosts.get? (u.norm m.host) = some gid ∧
      c'.hosts = (groupOf u c m.host).1.hosts ∧ 9 ≤ blob.length ∧
      (blob.length = 9 ↔ ∀ kv, kv ∈ headersSet m.headers ↔ InGroup c.codec gid kv) ∧
      (∀ g, g ≠ gid → glen c'.codec g ≤ glen c.codec g) ∧
      ∀ new : List Hdr, (∀ kv ∈ headersSet m.headers, isEref kv = false → ¬ Held c.codec kv → kv ∈ new) →
        ((c.codec.store.lru.length + new.length : Nat) : Int) ≤ c.codec.store.maxVals → GroupStep u.ordG c.codec c'.codec gid m.headers := by
  obtain ⟨q1, q2, q3, q4, -⟩ := compress_spec hG hc h257 hr.inv hr.key hr.hosts hr.few hm h
  obtain ⟨k1, k2, k3⟩ := groupOf_spec u hr.hosts m.host
  have hafter := groupOf_after u c m.host
  generalize hg : groupOf u c m.host = r at k1 k2 k3 hafter h ⊢
  simp only [compress, hg, bind, Except.bind, k2] at h
  split at h
  · cases h
  rename_i v hv
  obtain ⟨codec, g⟩ := v
  dsimp only at h
  split at h
  · cases h
  rename_i blob' hb
  simp only [pure, Except.pure, Except.ok.injEq, Prod.mk.injEq] at h
  obtain ⟨rfl, rfl⟩ := h
  have hst : ∀ x ∈ headersSet m.headers, x.1 ≠ c.codec.store.staticKey := by rw [hr.key]; exact headersSet_names hm.names
  obtain ⟨a1, a2, a3, a4, ⟨hg0, hmade, hlen⟩, a6⟩ := message_spec hG hm.orders hr.inv hst hv
  obtain ⟨b1, b2, b3, b4⟩ := message_once hG hm.orders hr.inv hr.once hr.noEref hst hv
  obtain ⟨i1, -⟩ := findOrMake_inv hr.inv r.2
  have hgs := made_ok i1 hmade hm.bytes
  obtain ⟨bytes, payload, more, w1, -, -, -, w5, -, w7, -⟩ := wire_any hc h257 g.groups hgs r.2 k3
  rw [hb] at w1
  cases w1
  refine ⟨⟨q1, q2.1.trans hr.key, q3, q4, b2, b3, q2.2.2.1.trans hr.max⟩, r.2, rfl, hafter, rfl, by omega, ?_, fun x hx => ?_,
    fun new h1 h2 => (message_groups hG hm.orders hr.inv hr.once hr.noEref hst new h1 h2 hv).2⟩
  · rw [← OpsSent.none hr.noEref b1, ← payloadB_nil (codes := codes)]
    constructor
    · intro e
      omega
    · intro e
      have := w7 (by omega)
      omega
  · have := a4 x
    rw [if_neg hx] at this
    exact this

theorem session_ready {u : Setup} (hG : GroupOrder u.ordG) {codes : List (List Bool)} (hc : Codes u.huffman codes)
    (h257 : codes.length = 257) (ms : List Message) : ∀ {c c' : Compressor} {blobs : List Str}, (∀ m ∈ ms, MessageOk u m) → Ready u c →
    compressAll u ms c = .ok (c', blobs) → Ready u c' := by
  induction ms with
  | nil =>
    intro c c' blobs _ hr h
    cases h
    exact hr
  | cons m ms ih =>
    intro c c' blobs hm hr h
    simp only [compressAll, bind, Except.bind] at h
    split at h
    · cases h
    rename_i v hv
    obtain ⟨c1, blob⟩ := v
    dsimp only at h
    split at h
    · cases h
    rename_i w hw
    obtain ⟨c2, blobs'⟩ := w
    simp only [pure, Except.pure, Except.ok.injEq, Prod.mk.injEq] at h
    obtain ⟨rfl, rfl⟩ := h
    exact ih (fun m h => hm m (by simp [h])) (compress_groups hG hc h257 hr (hm m (by simp)) hv).1 hw

/-- A session with one host leaves the other groups empty. -/
theorem session_alone {u : Setup} (hG : GroupOrder u.ordG) {codes : List (List Bool)} (hc : Codes u.huffman codes)
    (h257 : codes.length = 257) (host : Str) (gid : Nat) (ms : List Message) : ∀ {c c' : Compressor} {blobs : List Str},
    (∀ m ∈ ms, MessageOk u m ∧ u.norm m.host = host) → Ready u c → c.hosts.get? host = some gid → (∀ g, g ≠ gid → glen c.codec g = 0) →
    compressAll u ms c = .ok (c', blobs) → c'.hosts.get? host = some gid ∧ ∀ g, g ≠ gid → glen c'.codec g = 0 := by
  induction ms with
  | nil =>
    intro c c' blobs _ hr h1 h2 h
    cases h
    exact ⟨h1, h2⟩
  | cons m ms ih =>
    intro c c' blobs hm hr h1 h2 h
    simp only [compressAll, bind, Except.bind] at h
    split at h
    · cases h
    rename_i v hv
    obtain ⟨c1, blob⟩ := v
    dsimp only at h
    split at h
    · cases h
    rename_i w hw
    obtain ⟨c2, blobs'⟩ := w
    simp only [pure, Except.pure, Except.ok.injEq, Prod.mk.injEq] at h
    obtain ⟨rfl, rfl⟩ := h
    obtain ⟨hr', gid', e1, e2, e3, -, -, hl, -⟩ := compress_groups hG hc h257 hr (hm m (by simp)).1 hv
    have hgo : groupOf u c m.host = (c, gid) := by
      unfold groupOf
      rw [(hm m (by simp)).2, h1]
    rw [hgo] at e1 e3
    subst e1
    refine ih (fun m h => hm m (by simp [h])) hr' (by rw [e3]; exact h1) (fun g hg => ?_) hw
    have := hl g hg
    rw [h2 g hg] at this
    omega

end Verif.Delta1
