import Verif.Delta1.SessionLemmas
/-
When the compressor of delta does not fail.
-/
namespace Verif.Delta1
open Verif Verif.Bits Verif.Huff Verif.Delta2

/-! ### Ids -/

/-- The id that is given after `n`. -/
def succId (s : IdSt) (n : Nat) : Nat := if n + 1 ≥ s.maxId then s.minId else n + 1

/-- The id that is given `k` ids after `f`. -/
def idAt (s : IdSt) (f k : Nat) : Nat := if f + k < s.maxId then f + k else s.minId + (f + k - s.maxId)

theorem succ_idAt {s : IdSt} {f k : Nat} (h2 : f < s.maxId) (hk : k + 1 ≤ s.maxId - s.minId) :
    succId s (idAt s f k) = idAt s f (k + 1) := by
  unfold succId idAt
  by_cases h : f + k < s.maxId
  · rw [if_pos h]
    by_cases h' : f + k + 1 ≥ s.maxId
    · rw [if_pos h', if_neg (by omega)]
      omega
    · rw [if_neg h', if_pos (by omega)]
      omega
  · rw [if_neg h, if_neg (by omega), if_neg (by omega)]
    omega

theorem getNext_eq {s : IdSt} (h : 0 < s.maxId) : getNext s = ({ s with next := succId s s.next }, succId s s.next) := by
  have e : (s.maxId ≠ 0 ∧ s.next + 1 ≥ s.maxId) ↔ s.next + 1 ≥ s.maxId := ⟨fun h => h.2, fun h' => ⟨by omega, h'⟩⟩
  simp only [getNext, succId, e]

theorem unusedLoop_total {used : Nat → Bool} {s : IdSt} {f : Nat} (h1 : s.minId ≤ f) (h2 : f < s.maxId) {k : Nat}
    (hk : k < s.maxId - s.minId) (hu : used (idAt s f k) = false) (hb : ∀ j < k, used (idAt s f j) = true) :
    ∀ (n fuel : Nat), n ≤ k → k - n < fuel → ∀ s1 : IdSt, s1.minId = s.minId → s1.maxId = s.maxId → s1.next = idAt s f n →
    ∃ s2, unusedLoop used f fuel s1 (idAt s f n) = .ok (s2, idAt s f k) ∧ s2.minId = s.minId ∧ s2.maxId = s.maxId ∧
      s2.next = idAt s f k := by
  intro n fuel
  induction fuel generalizing n with
  | zero => intro _ h; omega
  | succ fuel ih =>
    intro hn hf s1 e1 e2 e3
    by_cases he : n = k
    · subst he
      exact ⟨s1, by simp [unusedLoop, hu], e1, e2, e3⟩
    · have hlt : n < k := by omega
      have hs : succId s1 s1.next = idAt s f (n + 1) := by
        rw [e3, ← succ_idAt h2 (by omega)]
        simp only [succId, e1, e2]
      have hne : idAt s f (n + 1) ≠ f := by
        unfold idAt
        split <;> omega
      have hg := getNext_eq (s := s1) (by omega)
      rw [hs] at hg
      obtain ⟨s2, j1, j2, j3, j4⟩ := ih (n + 1) (by omega) (by omega) { s1 with next := idAt s f (n + 1) } e1 e2 rfl
      refine ⟨s2, ?_, j2, j3, j4⟩
      simp only [unusedLoop, hb n hlt, if_true, hg, if_neg hne, j1]

/-- There is an unused id if not all are used. -/
theorem nextUnused_total {used : Nat → Bool} {s : IdSt} (h1 : s.minId ≤ s.next) (h2 : s.next < s.maxId)
    (hu : ∃ i, s.minId ≤ i ∧ i < s.maxId ∧ used i = false) :
    ∃ s2 i, nextUnused used s = .ok (s2, i) ∧ s2.minId = s.minId ∧ s2.maxId = s.maxId ∧ s2.minId ≤ s2.next ∧ s2.next < s2.maxId := by
  have hf : s.minId ≤ succId s s.next ∧ succId s s.next < s.maxId := by
    unfold succId
    split <;> omega
  generalize hfe : succId s s.next = f at hf
  have hex : ∃ k, k < s.maxId - s.minId ∧ used (idAt s f k) = false := by
    obtain ⟨i, i1, i2, i3⟩ := hu
    by_cases hi : f ≤ i
    · refine ⟨i - f, by omega, ?_⟩
      rw [idAt, if_pos (by omega), show f + (i - f) = i by omega]
      exact i3
    · refine ⟨i + (s.maxId - s.minId) - f, by omega, ?_⟩
      rw [idAt, if_neg (by omega), show s.minId + (f + (i + (s.maxId - s.minId) - f) - s.maxId) = i by omega]
      exact i3
  have hmin : ∃ k, (k < s.maxId - s.minId ∧ used (idAt s f k) = false) ∧ ∀ j < k, used (idAt s f j) = true := by
    classical
    refine ⟨Nat.find hex, Nat.find_spec hex, fun j hj => ?_⟩
    have := Nat.find_min hex hj
    have hlt := (Nat.find_spec hex).1
    rw [not_and] at this
    have := this (by omega)
    simpa using this
  obtain ⟨k, ⟨hk, hku⟩, hb⟩ := hmin
  have hg := getNext_eq (s := s) (by omega)
  rw [hfe] at hg
  have h0 : idAt s f 0 = f := by rw [idAt, if_pos (by omega)]; rfl
  obtain ⟨s2, j1, j2, j3, j4⟩ := unusedLoop_total hf.1 hf.2 hk hku hb 0 (s.maxId + 1) (by omega) (by omega)
    { s with next := f } rfl rfl h0.symm
  rw [h0] at j1
  refine ⟨s2, idAt s f k, ?_, j2, j3, ?_, ?_⟩
  · simp only [nextUnused, hg, j1]
  · rw [j2, j4]; unfold idAt; split <;> omega
  · rw [j3, j4]; unfold idAt; split <;> omega

/-- Fewer used ids than ids: one is unused. -/
theorem exists_unused {lo hi : Nat} (l : List Nat) (h : l.length < hi - lo) : ∃ i, lo ≤ i ∧ i < hi ∧ i ∉ l := by
  by_contra hc
  have hsub : ((List.range (hi - lo)).map (lo + ·)) ⊆ l := by
    intro i hi'
    simp only [List.mem_map, List.mem_range] at hi'
    obtain ⟨a, ha, rfl⟩ := hi'
    by_contra hn
    exact hc ⟨lo + a, by omega, by omega, hn⟩
  have hnd : ((List.range (hi - lo)).map (lo + ·)).Nodup :=
    List.Nodup.map (fun a b h => by simpa using h) List.nodup_range
  have := (List.subperm_of_subset hnd hsub).length_le
  simp only [List.length_map, List.length_range] at this
  omega

/-! ### The budget -/

/-- The lengths of some strings. -/
def total (l : List Str) : Nat := (l.map List.length).sum

theorem total_le {a b : List Str} (hnd : a.Nodup) (h : a ⊆ b) : total a ≤ total b := by
  obtain ⟨l, hp, hs⟩ := List.subperm_of_subset hnd h
  unfold total
  rw [← (hp.map List.length).sum_eq]
  exact (hs.map List.length).sum_le_sum (by simp)

/-- The keys that are counted. -/
def counted (s : Store) : List Str := s.keyMap.keys.filter (· ≠ s.staticKey)

/-- Everything is within the limits for these names and values of at most this length. -/
structure Bud (names : List Str) (vmax : Nat) (c : Codec) : Prop where
  wf : c.store.keyMap.WF
  sub : ∀ k ∈ c.store.keyMap.keys, k = c.store.staticKey ∨ k ∈ names
  size : c.store.stateSize ≤ total (counted c.store)
  idx : c.store.keyIdx.length ≤ (counted c.store).length
  kids : c.store.keyIds.minId = 0 ∧ c.store.keyIds.maxId = 2 ^ 16 ∧ c.store.keyIds.next < 2 ^ 16
  lids : c.store.lruIds.minId = 65 ∧ c.store.lruIds.maxId = 2 ^ 16 ∧ 65 ≤ c.store.lruIds.next ∧ c.store.lruIds.next < 2 ^ 16
  stat : c.store.statics = (List.range 65).map (· + 1)
  room : (total names : Int) + vmax ≤ c.store.maxSize
  few : names.length < 2 ^ 16
  ents : c.store.maxVals ≤ 65470
  lru : c.store.lru.length ≤ max c.store.maxVals.toNat 1

variable {names : List Str} {vmax : Nat}

theorem counted_sub {c : Codec} (hb : Bud names vmax c) : counted c.store ⊆ names := by
  intro k hk
  rw [counted, List.mem_filter] at hk
  rcases hb.sub k hk.1 with h | h
  · simp [h] at hk
  · exact h

theorem counted_nodup {c : Codec} (hb : Bud names vmax c) : (counted c.store).Nodup := hb.wf.filter _

/-- Changes that keep the keys and do not make the state larger. -/
theorem Bud.congr {c c' : Codec} (hb : Bud names vmax c) (hs : Same c c') (h1 : c'.store.keyMap.keys = c.store.keyMap.keys)
    (h2 : c'.store.stateSize ≤ c.store.stateSize) (h3 : c'.store.keyIdx = c.store.keyIdx)
    (h4 : c'.store.keyIds = c.store.keyIds)
    (h5 : c'.store.lruIds.minId = 65 ∧ c'.store.lruIds.maxId = 2 ^ 16 ∧ 65 ≤ c'.store.lruIds.next ∧ c'.store.lruIds.next < 2 ^ 16)
    (h6 : c'.store.lru.length ≤ max c.store.maxVals.toNat 1) : Bud names vmax c' := by
  obtain ⟨s1, s2, s3, s4⟩ := hs
  have hc : counted c'.store = counted c.store := by rw [counted, counted, h1, s1]
  refine ⟨?_, ?_, ?_, ?_, ?_, h5, ?_, ?_, hb.few, ?_, ?_⟩
  · show c'.store.keyMap.keys.Nodup
    rw [h1]; exact hb.wf
  · rw [h1, s1]; exact hb.sub
  · rw [hc]; exact Int.le_trans h2 hb.size
  · rw [hc, h3]; exact hb.idx
  · rw [h4]; exact hb.kids
  · rw [s2]; exact hb.stat
  · rw [s4]; exact hb.room
  · rw [s3]; exact hb.ents
  · rw [s3]; exact h6

theorem removeVal_size (s : Store) (ve : VE) (rest : List VE) : (removeVal s ve rest).stateSize ≤ s.stateSize := by
  unfold removeVal
  dsimp only
  split <;> dsimp only <;> omega

theorem popOne_total {c : Codec} (hi : Inv c) (hb : Bud names vmax c) :
    (c.store.lru = [] ∧ popOne c = .ok none) ∨ ∃ c', popOne c = .ok (some c') ∧ Bud names vmax c' := by
  unfold popOne
  cases hl : c.store.lru with
  | nil => exact .inl ⟨rfl, rfl⟩
  | cons ve rest =>
    right
    have hve : ve ∈ c.store.lru := by rw [hl]; simp
    obtain ⟨groups, hg⟩ := removeFrom_total ve.idx (groupsOf ve.hist) (groups := c.groups) (fun g hg => by
      obtain ⟨hg', h1, -⟩ := (hi.hist ve hve g).1 hg
      exact ⟨hg', h1⟩)
    obtain ⟨f1, f2, f3, f4, f5, f6, f7, f8, f9, f10⟩ := removeVal_fields c.store ve rest
    refine ⟨{ store := removeVal c.store ve rest, groups := groups }, by simp only [bind, Except.bind, hg, pure, Except.pure], ?_⟩
    refine hb.congr ⟨f8, f7, f9, f10⟩ (by dsimp only; rw [f2]) (removeVal_size _ _ _) f3 f4 (by dsimp only; rw [f5]; exact hb.lids) ?_
    dsimp only
    rw [f1]
    have := hb.lru
    rw [hl, List.length_cons] at this
    omega

theorem popLoop_total (adding : Int) (fuel : Nat) : ∀ {c : Codec}, Inv c → Bud names vmax c → c.store.lru.length < fuel →
    ∃ c' r, popLoop adding fuel c = .ok (c', r) ∧ Bud names vmax c' ∧ c'.store.keyMap = c.store.keyMap := by
  induction fuel with
  | zero => intro c _ _ h; omega
  | succ fuel ih =>
    intro c hi hb hf
    unfold popLoop
    split
    · rcases popOne_total hi hb with ⟨-, e⟩ | ⟨c1, e, hb1⟩
      · exact ⟨c, true, by simp only [bind, Except.bind, e, pure, Except.pure], hb, rfl⟩
      · obtain ⟨i1, i2, i3, i4, i5, -⟩ := popOne_spec hi e
        have hk : c1.store.keyMap = c.store.keyMap := by
          unfold popOne at e
          split at e
          · cases e
          · simp only [bind, Except.bind] at e
            split at e
            · cases e
            · simp only [pure, Except.pure, Except.ok.injEq, Option.some.injEq] at e
              subst e
              exact (removeVal_fields _ _ _).2.1
        have hlt : c1.store.lru.length < fuel := by
          rw [i4, List.length_tail]
          have := List.length_pos_iff.2 i5
          omega
        obtain ⟨c2, r, e2, hb2, hk2⟩ := ih i1 hb1 hlt
        exact ⟨c2, r, by simp only [bind, Except.bind, e, e2], hb2, hk2.trans hk⟩
    · exact ⟨c, false, rfl, hb, rfl⟩

theorem makeSpace_total {c : Codec} (hi : Inv c) (hb : Bud names vmax c) {space : Nat} {adding : Int}
    (hs : (total (counted c.store) : Int) + space ≤ c.store.maxSize) :
    ∃ c', makeSpace c space adding = .ok c' ∧ Bud names vmax c' ∧ c'.store.keyMap = c.store.keyMap := by
  obtain ⟨c1, r, e, hb1, hk⟩ := popLoop_total adding (c.store.lru.length + 1) hi hb (by omega)
  obtain ⟨-, s1, -⟩ := popLoop_spec adding _ hi e
  simp only [makeSpace, bind, Except.bind, e]
  cases r with
  | true => exact ⟨c1, rfl, hb1, hk⟩
  | false =>
    have hle : ¬c1.store.stateSize + space > c1.store.maxSize := by
      have h1 := hb1.size
      have h2 : counted c1.store = counted c.store := by rw [counted, counted, hk, s1.1]
      rw [h2] at h1
      rw [s1.2.2.2]
      omega
    exact ⟨c1, by simp only [Bool.false_eq_true, if_false, if_neg hle, pure, Except.pure], hb1, hk⟩

theorem findOrAddKey_total {c : Codec} (hi : Inv c) (hb : Bud names vmax c) {key : Str} (hk : key ∈ names)
    (hs : key ≠ c.store.staticKey) : ∃ c', findOrAddKey c key = .ok c' ∧ Bud names vmax c' := by
  unfold findOrAddKey
  split
  · exact ⟨c, rfl, hb⟩
  · rename_i hnew
    have hnk : key ∉ c.store.keyMap.keys := by
      rw [← Dict.get?_none]
      cases hg : c.store.keyMap.get? key with
      | none => rfl
      | some v => simp [Dict.has, hg] at hnew
    have hnc : key ∉ counted c.store := fun h => hnk (List.mem_filter.1 h).1
    have hnd : (key :: counted c.store).Nodup := List.nodup_cons.2 ⟨hnc, counted_nodup hb⟩
    have hsub : (key :: counted c.store) ⊆ names := List.cons_subset.2 ⟨hk, counted_sub hb⟩
    have htot := total_le hnd hsub
    have hlen := (List.subperm_of_subset hnd hsub).length_le
    have htc : total (key :: counted c.store) = key.length + total (counted c.store) := by simp [total]
    obtain ⟨c1, e1, hb1, hk1⟩ := makeSpace_total hi hb (space := key.length) (adding := 0) (by have := hb.room; omega)
    obtain ⟨i1, s1, -⟩ := makeSpace_spec hi e1
    have hcc : counted c1.store = counted c.store := by rw [counted, counted, hk1, s1.1]
    have hidx := hb1.idx
    rw [hcc] at hidx
    obtain ⟨i, -, h2, h3⟩ := exists_unused (lo := 0) (hi := 2 ^ 16) c1.store.keyIdx.keys (by
      rw [show c1.store.keyIdx.keys.length = c1.store.keyIdx.length from List.length_map _]
      have := hb.few
      rw [List.length_cons] at hlen
      omega)
    obtain ⟨ids, j, e2, j1, j2, j3, j4⟩ := nextUnused_total (used := fun i => c1.store.keyIdx.has i) (s := c1.store.keyIds)
      (by rw [hb1.kids.1]; omega) (by rw [hb1.kids.2.1]; exact hb1.kids.2.2) ⟨i, by rw [hb1.kids.1]; omega,
        by rw [hb1.kids.2.1]; exact h2, by
          rw [← Dict.get?_none] at h3
          simp [Dict.has, h3]⟩
    obtain ⟨-, hun, -⟩ := nextUnused_spec (by rw [i1.kids.1]; exact i1.kids.2) e2
    refine ⟨⟨{ c1.store with keyIds := ids, keyMap := c1.store.keyMap.set key { idx := j }, keyIdx := c1.store.keyIdx.set j key, stateSize := c1.store.stateSize + key.length }, c1.groups⟩, ?_, ?_⟩
    · simp only [bind, Except.bind, e1, newKE, e2, pure, Except.pure, hun, Bool.false_eq_true, if_false]
    · have hnk1 : key ∉ c1.store.keyMap.keys := by rw [hk1]; exact hnk
      have hkeys : (c1.store.keyMap.set key { idx := j }).keys = c1.store.keyMap.keys ++ [key] := by
        rw [Dict.keys_set, if_neg hnk1]
      have hcnt : counted { c1.store with keyIds := ids, keyMap := c1.store.keyMap.set key { idx := j }, keyIdx := (c1.store.keyIdx.set j key), stateSize := c1.store.stateSize + key.length } = counted c1.store ++ [key] := by
        simp only [counted]
        rw [hkeys, List.filter_append, List.filter_cons_of_pos (by rw [s1.1]; simpa using hs)]
        rfl
      have htc1 : total (counted c1.store ++ [key]) = total (counted c1.store) + key.length := by simp [total]
      refine ⟨hb1.wf.set _ _, ?_, ?_, ?_, ⟨j1.trans hb1.kids.1, j2.trans hb1.kids.2.1, ?_⟩, hb1.lids, hb1.stat, hb1.room, hb1.few, hb1.ents, hb1.lru⟩
      · intro k hkm
        dsimp only at hkm ⊢
        rw [hkeys] at hkm
        rcases List.mem_append.1 hkm with h | h
        · exact hb1.sub k h
        · simp only [List.mem_singleton] at h
          subst h
          exact .inr hk
      · rw [hcnt, htc1]
        have := hb1.size
        dsimp only
        omega
      · rw [hcnt, List.length_append, List.length_singleton]
        have h5 : (c1.store.keyIdx.set j key).length ≤ c1.store.keyIdx.length + 1 := by
          have := congrArg List.length (Dict.keys_set c1.store.keyIdx j key)
          rw [show (c1.store.keyIdx.set j key).keys.length = (c1.store.keyIdx.set j key).length from List.length_map _] at this
          rw [this]
          have h6 : c1.store.keyIdx.keys.length = c1.store.keyIdx.length := List.length_map _
          split <;> simp [h6]
        have := hb1.idx
        dsimp only
        omega
      · have := hb1.kids.2.1
        dsimp only
        omega

theorem refCnt_bud {c : Codec} (hb : Bud names vmax c) (key : Str) (n : Int) : Bud names vmax { c with store := refCnt c.store key n } := by
  obtain ⟨f1, f2, f3, f4, f5, f6, f7, f8, f9, f10, f11, f12⟩ := refCnt_fields c.store key n
  refine hb.congr ⟨f3, f2, f8, f9⟩ ?_ (by rw [f10]) f4 f5 (by dsimp only; rw [f6]; exact hb.lids) (by dsimp only; rw [f1]; exact hb.lru)
  dsimp only
  unfold refCnt
  split
  · rename_i ke hk
    dsimp only
    rw [Dict.keys_set, if_pos]
    exact Dict.mem_keys_of_mem (Dict.get?_mem hk)
  · rfl

theorem insertVal_total {c : Codec} (hi : Inv c) (hb : Bud names vmax c) {key val : Str} (hk : key ∈ names)
    (hs : key ≠ c.store.staticKey) (hv : val.length ≤ vmax) :
    ∃ c' new, insertVal c key val = .ok (c', new) ∧ Bud names vmax c' := by
  obtain ⟨c1, e1, hb1⟩ := findOrAddKey_total hi hb hk hs
  obtain ⟨i1, s1, -⟩ := findOrAddKey_spec hi e1
  simp only [insertVal, bind, Except.bind, e1]
  split
  · exact ⟨c1, false, rfl, hb1⟩
  · have hb2 := refCnt_bud hb1 key 1
    obtain ⟨i2, s2, -⟩ := refCnt_inv i1 key 1
    obtain ⟨c3, e3, hb3, -⟩ := makeSpace_total i2 hb2 (space := val.length) (adding := 1) (by
      have h1 := total_le (counted_nodup hb2) (counted_sub hb2)
      have h2 := hb2.room
      omega)
    refine ⟨⟨refCnt { c3.store with numVals := c3.store.numVals + 1 } key (-1), c3.groups⟩, true, by simp only [e3, pure, Except.pure], ?_⟩
    have hb4 : Bud names vmax { c3 with store := { c3.store with numVals := c3.store.numVals + 1 } } :=
      hb3.congr ⟨rfl, rfl, rfl, rfl⟩ rfl (Int.le_refl _) rfl rfl hb3.lids hb3.lru
    exact refCnt_bud hb4 key (-1)

theorem lru_unused {s : Store} (hst : s.statics = (List.range 65).map (· + 1)) (hl : s.lru.length ≤ 65469) :
    ∃ i, 65 ≤ i ∧ i < 2 ^ 16 ∧ s.used i = false := by
  obtain ⟨i, h1, h2, h3⟩ := exists_unused (lo := 66) (hi := 2 ^ 16) (s.lru.map (·.idx)) (by rw [List.length_map]; omega)
  refine ⟨i, by omega, h2, ?_⟩
  simp only [Store.used, Bool.or_eq_false_iff, decide_eq_false_iff_not, List.any_eq_false, decide_eq_true_eq]
  refine ⟨?_, fun ve hve he => h3 (he ▸ List.mem_map_of_mem hve)⟩
  rw [hst]
  simp only [List.mem_map, List.mem_range, not_exists, not_and]
  intro x hx he
  omega

theorem addToHead_total {c : Codec} (hb : Bud names vmax c) {key val : Str}
    (hl : c.store.lru = [] ∨ c.store.numVals ≤ c.store.maxVals) (hn : c.store.numVals = c.store.lru.length + 1) :
    ∃ c' i, addToHead c key val = .ok (c', i) ∧ Bud names vmax c' := by
  have hlen : c.store.lru.length ≤ 65469 := by
    rcases hl with h | h
    · rw [h]; simp
    · have := hb.ents
      omega
  obtain ⟨ids, j, e2, j1, j2, j3, j4⟩ := nextUnused_total (s := c.store.lruIds) (by rw [hb.lids.1]; exact hb.lids.2.2.1)
    (by rw [hb.lids.2.1]; exact hb.lids.2.2.2) (by rw [hb.lids.1, hb.lids.2.1]; exact lru_unused hb.stat hlen)
  refine ⟨⟨{ c.store with lruIds := ids, lru := c.store.lru ++ [{ idx := j, key := key, val := val }] }, c.groups⟩, j, by simp only [addToHead, bind, Except.bind, e2, pure, Except.pure], ?_⟩
  refine hb.congr ⟨rfl, rfl, rfl, rfl⟩ rfl (Int.le_refl _) rfl rfl ⟨j1.trans hb.lids.1, j2.trans hb.lids.2.1, ?_, ?_⟩ ?_
  · have := hb.lids.1
    dsimp only
    omega
  · have := hb.lids.2.1
    dsimp only
    omega
  · dsimp only
    rw [List.length_append, List.length_singleton]
    rcases hl with h | h
    · rw [h]; simp only [List.length_nil]; omega
    · omega

theorem toggledC_bud {c : Codec} (hb : Bud names vmax c) (gid : Nat) (hg S : List Nat) : Bud names vmax (toggledC c gid hg S) := by
  refine hb.congr ⟨rfl, rfl, rfl, rfl⟩ rfl (Int.le_refl _) rfl rfl hb.lids ?_
  simp only [toggledC, List.length_map]
  exact hb.lru

/-- No group is lost. -/
def GroupsKept (c c' : Codec) : Prop := ∀ g hg, c.groups.get? g = some hg → ∃ hg', c'.groups.get? g = some hg'

theorem removeFrom_kept (i : Nat) (gs : List Nat) : ∀ {groups groups' : Dict Nat (List Nat)},
    removeFrom i gs groups = .ok groups' → ∀ g hg, groups.get? g = some hg → ∃ hg', groups'.get? g = some hg' := by
  induction gs with
  | nil => intro groups groups' h g hg e; cases h; exact ⟨hg, e⟩
  | cons x xs ih =>
    intro groups groups' h g hg e
    simp only [removeFrom, bind, Except.bind] at h
    split at h
    · cases h
    · rename_i v hv
      by_cases hgx : g = x
      · exact ih h g (removeAsc v i) (by rw [Dict.get?_set, if_pos hgx.symm])
      · exact ih h g hg (by rw [Dict.get?_set, if_neg (Ne.symm hgx)]; exact e)

theorem popOne_kept {c c' : Codec} (h : popOne c = .ok (some c')) : GroupsKept c c' := by
  unfold popOne at h
  split at h
  · cases h
  · simp only [bind, Except.bind] at h
    split at h
    · cases h
    · rename_i hr
      simp only [pure, Except.pure, Except.ok.injEq, Option.some.injEq] at h
      subst h
      exact removeFrom_kept _ _ hr

theorem popLoop_kept (adding : Int) (fuel : Nat) : ∀ {c c' : Codec} {r : Bool}, popLoop adding fuel c = .ok (c', r) →
    GroupsKept c c' := by
  induction fuel with
  | zero => intro c c' r h; cases h
  | succ fuel ih =>
    intro c c' r h
    unfold popLoop at h
    split at h
    · simp only [bind, Except.bind] at h
      split at h
      · cases h
      · rename_i o ho
        cases o with
        | none =>
          simp only [pure, Except.pure, Except.ok.injEq, Prod.mk.injEq] at h
          rw [← h.1]
          exact fun g hg e => ⟨hg, e⟩
        | some c1 =>
          intro g hg e
          obtain ⟨hg1, e1⟩ := popOne_kept ho g hg e
          exact ih h g hg1 e1
    · simp only [Except.ok.injEq, Prod.mk.injEq] at h
      rw [← h.1]
      exact fun g hg e => ⟨hg, e⟩

theorem makeSpace_kept {c c' : Codec} {space : Nat} {adding : Int} (h : makeSpace c space adding = .ok c') : GroupsKept c c' := by
  simp only [makeSpace, bind, Except.bind] at h
  split at h
  · cases h
  · rename_i p hp
    have := popLoop_kept _ _ hp
    split at h
    · cases h; exact this
    · split at h
      · cases h
      · cases h; exact this

theorem findOrAddKey_kept {c c' : Codec} {key : Str} (h : findOrAddKey c key = .ok c') : GroupsKept c c' := by
  unfold findOrAddKey at h
  split at h
  · cases h; exact fun g hg e => ⟨hg, e⟩
  · simp only [bind, Except.bind] at h
    split at h
    · cases h
    · rename_i c1 h1
      split at h
      · cases h
      · split at h
        · cases h
        · cases h
          have := makeSpace_kept h1
          exact this

theorem insertVal_kept {c c' : Codec} {key val : Str} {new : Bool} (h : insertVal c key val = .ok (c', new)) :
    GroupsKept c c' := by
  simp only [insertVal, bind, Except.bind] at h
  split at h
  · cases h
  · rename_i c1 h1
    have k1 := findOrAddKey_kept h1
    split at h
    · cases h; exact k1
    · split at h
      · cases h
      · rename_i c2 h2
        cases h
        intro g hg e
        obtain ⟨hg1, e1⟩ := k1 g hg e
        exact makeSpace_kept h2 g hg1 e1

theorem storeOne_total {c : Codec} (hi : Inv c) (hb : Bud names vmax c) {gid : Nat} (hg : ∃ h, c.groups.get? gid = some h)
    {kv : Hdr} (hk : kv.1 ∈ names) (hs : kv.1 ≠ c.store.staticKey) (hv : kv.2.length ≤ vmax) :
    ∃ c', storeOne gid c kv = .ok c' ∧ Bud names vmax c' ∧ ∃ h, c'.groups.get? gid = some h := by
  obtain ⟨c1, new, e1, hb1⟩ := insertVal_total hi hb hk hs hv
  obtain ⟨s1, k1, h1, -, -, p1, p2⟩ := insertVal_spec hi e1
  obtain ⟨h0, hg0⟩ := hg
  obtain ⟨hg1, eg1⟩ := insertVal_kept e1 gid h0 hg0
  cases new with
  | false => exact ⟨c1, by simp only [storeOne, bind, Except.bind, e1, Bool.false_eq_true, if_false, pure, Except.pure], hb1, hg1, eg1⟩
  | true =>
    obtain ⟨i1, hl⟩ := p2 rfl
    have hn : c1.store.numVals = c1.store.lru.length + 1 := by
      have := i1.inv.cnt
      dsimp only at this
      omega
    obtain ⟨c2, i, e2, hb2⟩ := addToHead_total hb1 (key := kv.1) (val := kv.2) hl hn
    obtain ⟨i2, s2, k2, l2, g2, n2⟩ := addToHead_spec i1 h1 e2
    have eg2 : c2.groups.get? gid = some hg1 := by rw [g2]; exact eg1
    have e3 := doToggle_eq i2 eg2 (ve := { idx := i, key := kv.1, val := kv.2 }) (by rw [l2]; simp)
    refine ⟨_, by simp only [storeOne, bind, Except.bind, e1, e2, if_true]; exact e3, toggledC_bud hb2 _ _ _, ?_⟩
    exact ⟨_, by rw [toggledC, Dict.get?_set, if_pos rfl]⟩

theorem storeAll_total (gid : Nat) (kvs : List Hdr) : ∀ {c : Codec}, Inv c → Bud names vmax c → (∃ h, c.groups.get? gid = some h) →
    (∀ kv ∈ kvs, kv.1 ∈ names ∧ kv.1 ≠ c.store.staticKey ∧ kv.2.length ≤ vmax) →
    ∃ c', storeAll gid kvs c = .ok c' ∧ Bud names vmax c' ∧ ∃ h, c'.groups.get? gid = some h := by
  induction kvs with
  | nil => intro c _ hb hg _; exact ⟨c, rfl, hb, hg⟩
  | cons kv kvs ih =>
    intro c hi hb hg hk
    obtain ⟨k1, k2, k3⟩ := hk kv (by simp)
    obtain ⟨c1, e1, hb1, hg1⟩ := storeOne_total hi hb hg k1 k2 k3
    obtain ⟨i1, s1, -⟩ := storeOne_spec hi e1
    obtain ⟨c2, e2, r⟩ := ih i1 hb1 hg1 (fun kv hkv => by rw [s1.1]; exact hk kv (by simp [hkv]))
    exact ⟨c2, by simp only [storeAll, bind, Except.bind, e1, e2], r⟩

theorem renumber_total {ordG : List GEvent → List Nat} (ho : GroupOrder ordG) {c : Codec} {gid i : Nat} (hi : Inv c)
    (hb : Bud names vmax c) (hin : ∃ hg, c.groups.get? gid = some hg ∧ i ∈ hg) :
    ∃ c', renumber ordG gid c i = .ok c' ∧ Bud names vmax c' := by
  obtain ⟨hg, eg, hm⟩ := hin
  obtain ⟨ve, hve, rfl⟩ := hi.mem gid hg eg i hm
  obtain ⟨groups, hgr⟩ := removeFrom_total ve.idx (ordG ve.hist) (groups := c.groups) (fun g hg => by
    obtain ⟨hg', h1, -⟩ := (hi.hist ve hve g).1 ((ho _).mem_iff.1 hg)
    exact ⟨hg', h1⟩)
  have hlen := filter_length hi.nd hve
  have hl := hb.lru
  have hen := hb.ents
  obtain ⟨ids, j, e2, j1, j2, j3, j4⟩ := nextUnused_total (s := c.store.lruIds)
    (used := Store.used { c.store with lru := c.store.lru.filter (·.idx ≠ ve.idx) })
    (by rw [hb.lids.1]; exact hb.lids.2.2.1)
    (by rw [hb.lids.2.1]; exact hb.lids.2.2.2) (by
      rw [hb.lids.1, hb.lids.2.1]
      exact lru_unused hb.stat (by dsimp only; omega))
  have hlast : ∃ hg', groups.get? ((ordG ve.hist).getLast?.getD gid) = some hg' := by
    have hin : (ordG ve.hist).getLast?.getD gid ∈ ordG ve.hist := by
      cases hq : (ordG ve.hist).getLast? with
      | none =>
        have : gid ∈ ordG ve.hist := (ho _).mem_iff.2 ((hi.hist ve hve gid).2 ⟨hg, eg, hm⟩)
        exact this
      | some x => exact List.mem_of_getLast? hq
    obtain ⟨hg', h1, -⟩ := (hi.hist ve hve _).1 ((ho _).mem_iff.1 hin)
    exact removeFrom_kept _ _ hgr _ _ h1
  obtain ⟨hg', elast⟩ := hlast
  refine ⟨⟨{ c.store with lruIds := ids, lru := c.store.lru.filter (·.idx ≠ ve.idx) ++ [{ ve with idx := j, hist := ve.hist ++ [.clear, .add ((ordG ve.hist).getLast?.getD gid)] }] }, groups.set ((ordG ve.hist).getLast?.getD gid) (insertAsc j hg')⟩, ?_, ?_⟩
  · simp only [renumber, bind, Except.bind, lookup_ok hi hve, hgr, e2, group_ok.2 elast, pure, Except.pure]
  · refine hb.congr ⟨rfl, rfl, rfl, rfl⟩ rfl (Int.le_refl _) rfl rfl ⟨j1.trans hb.lids.1, j2.trans hb.lids.2.1, ?_, ?_⟩ ?_
    · have := hb.lids.1
      dsimp only
      omega
    · have := hb.lids.2.1
      dsimp only
      omega
    · dsimp only
      rw [List.length_append, List.length_singleton]
      omega

theorem renumberAll_total {ordG : List GEvent → List Nat} (ho : GroupOrder ordG) (gid : Nat) (is : List Nat) :
    ∀ {c : Codec}, Inv c → Bud names vmax c → is.Nodup → (∀ i ∈ is, ∃ hg, c.groups.get? gid = some hg ∧ i ∈ hg) →
    ∃ c', renumberAll ordG gid is c = .ok c' ∧ Bud names vmax c' := by
  induction is with
  | nil => intro c _ hb _ _; exact ⟨c, rfl, hb⟩
  | cons i is ih =>
    intro c hi hb hnd hin
    obtain ⟨hg, eg, hm⟩ := hin i (by simp)
    obtain ⟨c1, e1, hb1⟩ := renumber_total ho hi hb ⟨hg, eg, hm⟩
    obtain ⟨i1, -, -, -, q1, q2⟩ := renumber_spec ho hi ⟨hg, eg, hm⟩ e1
    rw [List.nodup_cons] at hnd
    obtain ⟨c2, e2, hb2⟩ := ih i1 hb1 hnd.2 (fun x hx => by
      obtain ⟨hgx, ex, hmx⟩ := hin x (by simp [hx])
      obtain ⟨hg', eg'⟩ := q2 gid hgx ex
      obtain ⟨hg2, eg2, -, q⟩ := q1 gid hg' eg'
      rw [ex] at eg2
      cases eg2
      exact ⟨hg', eg', q x hmx (fun h => hnd.1 (h ▸ hx))⟩)
    exact ⟨c2, by simp only [renumberAll, bind, Except.bind, e1, e2], hb2⟩

theorem adjust_total {ordG : List GEvent → List Nat} (ho : GroupOrder ordG) {gid : Nat} {c : Codec} (hi : Inv c)
    (hb : Bud names vmax c) (hg : ∃ h, c.groups.get? gid = some h) : ∃ c', adjust ordG c gid = .ok c' ∧ Bud names vmax c' := by
  obtain ⟨h, e⟩ := hg
  obtain ⟨c', e', hb'⟩ := renumberAll_total ho gid h hi hb (asc_nodup (hi.asc gid h e)) (fun i hi => ⟨h, e, hi⟩)
  exact ⟨c', by simp only [adjust, bind, Except.bind, group_ok.2 e, e'], hb'⟩

/-- What the message asks for is within the limits. -/
theorem makeOperations_total {ordG : List GEvent → List Nat} (hG : GroupOrder ordG) {o : Orders} (ho : o.Ok) {c : Codec}
    (hi : Inv c) (hb : Bud names vmax c) {headers : Dict Str Str}
    (hh : ∀ x ∈ headersSet headers, x.1 ∈ names ∧ x.1 ≠ c.store.staticKey ∧ x.2.length ≤ vmax) (gid : Nat) :
    ∃ c' g, makeOperations ordG o c headers gid = .ok (c', g) ∧ Bud names vmax c' := by
  obtain ⟨i1, s1, st1, ⟨hg, eg⟩, -⟩ := findOrMake_inv hi gid
  have hb1 : Bud names vmax (findOrMake c gid) := by
    refine hb.congr s1 (by rw [st1]) (by rw [st1]) (by rw [st1]) (by rw [st1]) (by rw [st1]; exact hb.lids) (by rw [st1]; exact hb.lru)
  obtain ⟨g, e1, hm⟩ := makeInstructions_spec i1 eg ho (headers := headers) (fun x hx => by rw [s1.1]; exact (hh x hx).2.1)
  have htog : (g.toggl.map Op.toggl).flatMap Op.toggled = g.toggl := by
    simp [List.flatMap_map, Op.toggled]
  have hex := execute_eq i1 eg ho.onC (g.toggl.map .toggl) g.lits (by simp [Op.isToggle]) (lits_isToggle g)
    (fun k v h => (hm.key k v h).2) (by rw [htog]; exact hm.nd) (by rw [htog]; exact hm.mem)
  rw [htog] at hex
  obtain ⟨i2, s2, -⟩ := toggledC_inv i1 g.toggl eg hm.nd hm.mem
  obtain ⟨c3, e3, hb3, hg3⟩ := storeAll_total gid ((g.lits.filter Op.isStored).map (litOf (findOrMake c gid).store)) i2
    (toggledC_bud hb1 gid hg g.toggl) ⟨_, by rw [toggledC, Dict.get?_set, if_pos rfl]⟩ (fun kv hkv => by
      rw [List.mem_map] at hkv
      obtain ⟨op, hop, rfl⟩ := hkv
      rw [(s1.trans s2).1]
      exact hh _ (hm.lits op (List.mem_filter.1 hop).1))
  obtain ⟨i3, -⟩ := storeAll_spec gid _ i2 e3
  obtain ⟨c4, e4, hb4⟩ := adjust_total hG i3 hb3 hg3
  refine ⟨c4, g, ?_, hb4⟩
  rw [e3] at hex
  simp only [makeOperations, bind, Except.bind, e1, ops_flat, hex, Except.map, e4, pure, Except.pure]

/-- All header names of the messages are among these, no piece of a value is longer. -/
def Within (names : List Str) (vmax : Nat) (m : Message) : Prop :=
  ∀ x ∈ headersSet m.headers, x.1 ∈ names ∧ x.2.length ≤ vmax

theorem compress_total {u : Setup} (hG : GroupOrder u.ordG) {codes : List (List Bool)} (hc : Codes u.huffman codes)
    (h257 : codes.length = 257) {c : Compressor} (hi : Inv c.codec) (hs : c.codec.store.staticKey = u.staticKey)
    (hh : HostsOk c) (hb : Bud names vmax c.codec) {m : Message} (hm : MessageOk u m) (hw : Within names vmax m) :
    ∃ c' blob, compress u c m = .ok (c', blob) ∧ Bud names vmax c'.codec := by
  obtain ⟨h1, h2, h3⟩ := groupOf_spec u hh m.host
  have hst := headersSet_names hm.names
  obtain ⟨c', g, e1, hb1⟩ := makeOperations_total hG hm.orders (c := (groupOf u c m.host).1.codec) (by rw [h2]; exact hi)
    (by rw [h2]; exact hb) (headers := m.headers) (fun x hx => ⟨(hw x hx).1, by rw [h2, hs]; exact hst x hx, (hw x hx).2⟩)
    (groupOf u c m.host).2
  obtain ⟨-, -, -, -, ⟨hg, hmade, -⟩, -⟩ := message_spec hG hm.orders (by rw [h2]; exact hi) (fun x hx => by
    rw [h2, hs]; exact hst x hx) e1
  have hok := made_ok (findOrMake_inv (by rw [h2]; exact hi) _).1 hmade hm.bytes
  obtain ⟨bytes, -, -, e2, -⟩ := wire_spec hc h257 g.groups hok (groupOf u c m.host).2 h3
  refine ⟨{ (groupOf u c m.host).1 with codec := c' }, bytes, ?_, hb1⟩
  simp only [compress, bind, Except.bind, e1, e2, pure, Except.pure]

theorem session_total {u : Setup} (hG : GroupOrder u.ordG) {codes : List (List Bool)} (hc : Codes u.huffman codes)
    (h257 : codes.length = 257) (ms : List Message) (hm : ∀ m ∈ ms, MessageOk u m ∧ Within names vmax m) : ∀ {c : Compressor},
    Inv c.codec → c.codec.store.staticKey = u.staticKey → HostsOk c → (∀ g, glen c.codec g ≤ 128) →
    Bud names vmax c.codec → ∃ c' blobs, compressAll u ms c = .ok (c', blobs) := by
  induction ms with
  | nil => intro c _ _ _ _ _; exact ⟨c, [], rfl⟩
  | cons m ms ih =>
    intro c hi hs hh hl hb
    obtain ⟨m1, m2⟩ := hm m (by simp)
    obtain ⟨c1, b, e1, hb1⟩ := compress_total hG hc h257 hi hs hh hb m1 m2
    obtain ⟨i1, s1, hh1, hl1, -⟩ := compress_spec hG hc h257 hi hs hh hl m1 e1
    obtain ⟨c2, bs, e2⟩ := ih (fun m hm' => hm m (by simp [hm'])) i1 (s1.1.trans hs) hh1 hl1 hb1
    exact ⟨c2, b :: bs, by simp only [compressAll, bind, Except.bind, e1, e2, pure, Except.pure]⟩

theorem init_bud {staticKey : Str} {mb me : Int} (hroom : (total names : Int) + vmax ≤ mb) (hfew : names.length < 2 ^ 16)
    (he : me ≤ 65470) : Bud names vmax { store := initStore staticKey mb me 65 } := by
  have hk : (initStore staticKey mb me 65).keyMap.keys = [staticKey] := rfl
  have hcnt : counted (initStore staticKey mb me 65) = [] := by
    rw [counted, hk]
    simp [initStore]
  refine ⟨?_, ?_, ?_, ?_, ⟨rfl, rfl, show 1 < 2 ^ 16 by decide⟩, ⟨rfl, rfl, Nat.le_refl 65, show 65 < 2 ^ 16 by decide⟩, rfl, hroom, hfew, he, ?_⟩
  · show [staticKey].Nodup
    simp
  · intro k hkm
    left
    rw [hk] at hkm
    exact List.mem_singleton.1 hkm
  · rw [hcnt]; exact Int.le_refl 0
  · exact Nat.zero_le _
  · exact Nat.zero_le _

end Verif.Delta1
