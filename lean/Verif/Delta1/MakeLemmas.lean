import Verif.Delta1.CodecLemmas
/-
The instructions the compressor of delta makes for a message.
-/
namespace Verif.Delta1
open Verif Verif.Delta2

/-! ### The loop over the header group -/

/-- `hgLoop` on indices that are in use: what is left, and which entries are kept. -/
theorem hgLoop_spec {c : Codec} (hi : Inv c) (l : List Nat) : (∀ i ∈ l, ∃ ve ∈ c.store.lru, ve.idx = i) → l.Nodup →
    ∀ {hs : List Hdr} {done : List Nat}, hs.Nodup → (∀ i ∈ l, i ∉ done) → done.Nodup →
    ∃ hs' done', hgLoop c.store l hs done = .ok (hs', done') ∧ hs'.Nodup ∧ done'.Nodup ∧
      (∀ x, x ∈ hs' ↔ x ∈ hs ∧ ∀ i ∈ l, pairOf c.store i ≠ x) ∧ (∀ i, i ∈ done → i ∈ done') ∧
      (∀ i, i ∈ done' → i ∈ done ∨ i ∈ l) ∧
      (∀ x, (∃ i ∈ l, i ∉ done' ∧ pairOf c.store i = x) ↔ x ∈ hs ∧ ∃ i ∈ l, pairOf c.store i = x) ∧
      (l.filter (· ∉ done')).length + hs'.length = hs.length := by
  induction l with
  | nil =>
    intro _ _ hs done hn _ hd
    exact ⟨hs, done, rfl, hn, hd, fun x => by simp, fun _ h => h, fun _ h => .inl h, fun x => by simp, by simp⟩
  | cons i l ih =>
    intro hin hnd hs done hn hdis hdn
    rw [List.nodup_cons] at hnd
    obtain ⟨ve, hm, rfl⟩ := hin i (by simp)
    have hp := pairOf_mem hi hm
    have hin' : ∀ j ∈ l, ∃ w ∈ c.store.lru, w.idx = j := fun j hj => hin j (by simp [hj])
    simp only [hgLoop, bind, Except.bind, lookup_ok hi hm]
    by_cases hx : (ve.key, ve.val) ∈ hs
    · rw [if_pos hx]
      obtain ⟨hs', done', e, k1, k2, k3, k4, k5, k6, k7⟩ := ih hin' hnd.2 (hs := hs.filter (· ≠ (ve.key, ve.val)))
        (hn.filter _) (fun j hj => hdis j (by simp [hj])) hdn
      have hnot : ve.idx ∉ done' := fun h => by
        rcases k5 _ h with h | h
        · exact hdis ve.idx (by simp) h
        · exact hnd.1 h
      refine ⟨hs', done', e, k1, k2, fun x => ?_, k4, fun j hj => ?_, fun x => ?_, ?_⟩
      · rw [k3 x, List.mem_filter, List.forall_mem_cons, hp]
        simp only [decide_eq_true_eq, ne_eq]
        constructor
        · rintro ⟨⟨h1, h2⟩, h3⟩
          exact ⟨h1, fun h => h2 h.symm, h3⟩
        · rintro ⟨h1, h2, h3⟩
          exact ⟨⟨h1, fun h => h2 h.symm⟩, h3⟩
      · rcases k5 j hj with h | h
        · exact .inl h
        · exact .inr (by simp [h])
      · have := k6 x
        simp only [List.mem_filter, decide_eq_true_eq] at this
        constructor
        · rintro ⟨j, hj, hjd, rfl⟩
          rcases List.mem_cons.1 hj with rfl | hj'
          · rw [hp]
            exact ⟨hx, ve.idx, by simp, hp⟩
          · obtain ⟨⟨h1, -⟩, j', hj1, hj2⟩ := this.1 ⟨j, hj', hjd, rfl⟩
            exact ⟨h1, j', by simp [hj1], hj2⟩
        · rintro ⟨h1, j, hj, rfl⟩
          by_cases he : pairOf c.store j = (ve.key, ve.val)
          · exact ⟨ve.idx, by simp, hnot, by rw [he, hp]⟩
          · rcases List.mem_cons.1 hj with rfl | hj'
            · exact absurd hp he
            · obtain ⟨j', h1', h2', h3'⟩ := this.2 ⟨⟨h1, he⟩, j, hj', rfl⟩
              exact ⟨j', by simp [h1'], h2', h3'⟩
      · rw [List.filter_cons_of_pos (by simpa using hnot), List.length_cons]
        have : (hs.filter (· ≠ (ve.key, ve.val))).length + 1 = hs.length := by
          have h2 : hs.filter (· ≠ (ve.key, ve.val)) = hs.erase (ve.key, ve.val) := by
            rw [hn.erase_eq_filter]
            apply List.filter_congr
            intro x _
            rw [Bool.eq_iff_iff]
            simp
          have hpos := List.length_pos_of_mem hx
          rw [h2, List.length_erase_of_mem hx]
          omega
        rw [← this, ← k7]
        omega
    · rw [if_neg hx]
      have hdn' : (addSet done ve.idx).Nodup := nodup_addSet hdn
      obtain ⟨hs', done', e, k1, k2, k3, k4, k5, k6, k7⟩ := ih hin' hnd.2 (hs := hs) (done := addSet done ve.idx) hn
        (fun j hj hjd => by
          rcases mem_addSet.1 hjd with h | rfl
          · exact hdis j (by simp [hj]) h
          · exact hnd.1 hj) hdn'
      have hdone : ve.idx ∈ done' := k4 _ (mem_addSet.2 (.inr rfl))
      refine ⟨hs', done', e, k1, k2, fun x => ?_, fun j hj => k4 j (mem_addSet.2 (.inl hj)), fun j hj => ?_, fun x => ?_, ?_⟩
      · rw [k3 x, List.forall_mem_cons, hp]
        constructor
        · rintro ⟨h1, h2⟩
          exact ⟨h1, fun h => hx (h ▸ h1), h2⟩
        · rintro ⟨h1, -, h2⟩
          exact ⟨h1, h2⟩
      · rcases k5 j hj with h | h
        · rcases mem_addSet.1 h with h | rfl
          · exact .inl h
          · exact .inr (by simp)
        · exact .inr (by simp [h])
      · have := k6 x
        constructor
        · rintro ⟨j, hj, hjd, rfl⟩
          rcases List.mem_cons.1 hj with rfl | hj'
          · exact absurd hdone hjd
          · obtain ⟨h1, j', hj1, hj2⟩ := this.1 ⟨j, hj', hjd, rfl⟩
            exact ⟨h1, j', by simp [hj1], hj2⟩
        · rintro ⟨h1, j, hj, rfl⟩
          rcases List.mem_cons.1 hj with rfl | hj'
          · rw [hp] at h1
            exact absurd h1 hx
          · obtain ⟨j', h1', h2', h3'⟩ := this.2 ⟨h1, j, hj', rfl⟩
            exact ⟨j', by simp [h1'], h2', h3'⟩
      · rw [List.filter_cons_of_neg (by simpa using hdone)]
        exact k7

/-! ### The loop over the remaining headers -/

/-- Is never stored. -/
def isEref (kv : Hdr) : Bool := decide (kv.1 = b!":path" ∨ kv.1 = b!"referer")

/-- The toggle for a header. -/
def togOf (st : Store) (kv : Hdr) : Option Nat :=
  if isEref kv then none
  else
    match st.keyMap.get? kv.1 with
    | some _ => (findVal st kv.1 kv.2).map (·.idx)
    | none => none

/-- The clone for a header. -/
def cloneOf (st : Store) (kv : Hdr) : Option (Nat × Str) :=
  if isEref kv then none
  else
    match st.keyMap.get? kv.1 with
    | some ke => if (findVal st kv.1 kv.2).isSome then none else some (ke.idx, kv.2)
    | none => none

/-- Is sent with key and value, to be stored. -/
def isKvsto (st : Store) (kv : Hdr) : Bool := !isEref kv && (st.keyMap.get? kv.1).isNone

theorem makeOne_eq (st : Store) (g : Instrs) (kv : Hdr) : makeOne st g kv =
    { toggl := (togOf st kv).toList.foldl addSet g.toggl, clone := g.clone ++ (cloneOf st kv).toList
      kvsto := g.kvsto ++ if isKvsto st kv then [kv] else [], eref := g.eref ++ if isEref kv then [kv] else [] } := by
  unfold makeOne togOf cloneOf isKvsto isEref
  by_cases h : kv.1 = b!":path" ∨ kv.1 = b!"referer"
  · simp only [h, if_true, decide_true, Option.toList, List.foldl_nil, List.append_nil, Bool.not_true, Bool.false_and,
      Bool.false_eq_true, if_false]
  · simp only [h, if_false, decide_false, Bool.false_eq_true, Bool.not_false, Bool.true_and]
    cases st.keyMap.get? kv.1 with
    | none => simp
    | some ke =>
      cases findVal st kv.1 kv.2 <;> simp

theorem foldl_makeOne (st : Store) (l : List Hdr) : ∀ g : Instrs, l.foldl (makeOne st) g =
    { toggl := (l.filterMap (togOf st)).foldl addSet g.toggl, clone := g.clone ++ l.filterMap (cloneOf st)
      kvsto := g.kvsto ++ l.filter (isKvsto st), eref := g.eref ++ l.filter isEref } := by
  induction l with
  | nil => intro g; simp
  | cons kv l ih =>
    intro g
    rw [List.foldl_cons, ih, makeOne_eq]
    simp only [List.filterMap_cons, List.filter_cons, List.append_assoc]
    congr 1
    · cases togOf st kv <;> simp
    · cases cloneOf st kv <;> simp
    · cases isKvsto st kv <;> simp
    · cases isEref kv <;> simp

theorem kinds_length (st : Store) (l : List Hdr) :
    (l.filterMap (togOf st)).length + (l.filterMap (cloneOf st)).length + (l.filter (isKvsto st)).length +
      (l.filter isEref).length = l.length := by
  induction l with
  | nil => rfl
  | cons kv l ih =>
    have h1 : (togOf st kv).toList.length + (cloneOf st kv).toList.length + (if isKvsto st kv then 1 else 0) +
        (if isEref kv then 1 else 0) = 1 := by
      unfold togOf cloneOf isKvsto
      cases isEref kv with
      | true => simp
      | false =>
        cases st.keyMap.get? kv.1 with
        | none => simp
        | some ke => cases findVal st kv.1 kv.2 <;> simp
    have h2 : ∀ {α : Type} (f : Hdr → Option α), ((kv :: l).filterMap f).length = (f kv).toList.length + (l.filterMap f).length := by
      intro α f
      rw [List.filterMap_cons]
      cases f kv
      · simp
      · simp [Nat.add_comm]
    have h3 : ∀ p : Hdr → Bool, ((kv :: l).filter p).length = (if p kv then 1 else 0) + (l.filter p).length := by
      intro p
      rw [List.filter_cons]
      cases p kv
      · simp
      · simp only [if_true, List.length_cons]; omega
    rw [h2, h2, h3, h3, List.length_cons]
    omega

theorem togOf_some {c : Codec} (hi : Inv c) {kv : Hdr} {i : Nat} (h : togOf c.store kv = some i) :
    ∃ ve ∈ c.store.lru, ve.idx = i ∧ pairOf c.store i = kv := by
  unfold togOf at h
  split at h
  · cases h
  · split at h
    · rw [Option.map_eq_some_iff] at h
      obtain ⟨ve, hv, rfl⟩ := h
      have hm : ve ∈ c.store.lru := List.mem_of_find?_eq_some hv
      have := List.find?_some hv
      simp only [decide_eq_true_eq] at this
      refine ⟨ve, hm, rfl, ?_⟩
      rw [pairOf_mem hi hm, this.1, this.2]
    · cases h

theorem cloneOf_some {st : Store} {kv : Hdr} {p : Nat × Str} (h : cloneOf st kv = some p) :
    ∃ ke, st.keyMap.get? kv.1 = some ke ∧ p = (ke.idx, kv.2) := by
  unfold cloneOf at h
  split at h
  · cases h
  · split at h
    · rename_i ke hk
      split at h
      · cases h
      · cases h
        exact ⟨ke, hk, rfl⟩
    · cases h

/-- Each header is sent in one of four ways. -/
theorem kinds_cover (st : Store) (kv : Hdr) :
    (∃ i, togOf st kv = some i) ∨ (∃ p, cloneOf st kv = some p) ∨ isKvsto st kv = true ∨ isEref kv = true := by
  unfold togOf cloneOf isKvsto
  cases isEref kv with
  | true => simp
  | false =>
    cases st.keyMap.get? kv.1 with
    | none => simp
    | some ke => cases findVal st kv.1 kv.2 <;> simp

/-! ### The instructions -/

/-- The operations that are not toggles. -/
def Instrs.lits (g : Instrs) : List Op :=
  g.clone.map (fun x => .clone x.1 x.2) ++ g.kvsto.map (fun x => .kvsto x.1 x.2) ++ g.eref.map (fun x => .eref x.1 x.2)

/-- What the compressor makes of a message. -/
structure Made (c : Codec) (hg : List Nat) (headers : Dict Str Str) (g : Instrs) : Prop where
  nd : g.toggl.Nodup
  mem : ∀ i ∈ g.toggl, ∃ ve ∈ c.store.lru, ve.idx = i
  key : ∀ k v, Op.clone k v ∈ g.lits → k < 2 ^ 16 ∧ (c.store.keyIdx.get? k).isSome
  lits : ∀ op ∈ g.lits, litOf c.store op ∈ headersSet headers
  all : ∀ x, x ∈ (symDiff (g.toggl.foldl addSet []) hg).map (pairOf c.store) ++ g.lits.map (litOf c.store) ↔
    x ∈ headersSet headers
  few : g.toggl.length ≤ hg.length + (headersSet headers).length
  few' : g.clone.length + g.kvsto.length + g.eref.length ≤ (headersSet headers).length
  grp : (symDiff (g.toggl.foldl addSet []) hg).length + g.clone.length + g.kvsto.length ≤ (headersSet headers).length

theorem makeInstructions_spec {c : Codec} (hi : Inv c) {gid : Nat} {hg : List Nat} (hhg : c.groups.get? gid = some hg)
    {o : Orders} (ho : o.Ok) {headers : Dict Str Str} (hst : ∀ x ∈ headersSet headers, x.1 ≠ c.store.staticKey) :
    ∃ g, makeInstructions o c headers gid = .ok g ∧ Made c hg headers g := by
  have hasc := hi.asc gid hg hhg
  have hin : ∀ i ∈ o.hg hg, ∃ ve ∈ c.store.lru, ve.idx = i := fun i h => hi.mem gid hg hhg i ((ho.hg hg).mem_iff.1 h)
  obtain ⟨hs, done, e, k1, k2, k3, -, k5, k6, k7⟩ := hgLoop_spec hi (o.hg hg) hin
    ((ho.hg hg).nodup_iff.2 (asc_nodup hasc)) (nodup_headersSet headers) (done := []) (by simp) List.nodup_nil
  have hT : ∀ i, i ∈ o.toggl (done.foldl addSet (((o.hset hs).filterMap (togOf c.store)).foldl addSet [])) ↔
      (∃ kv ∈ hs, togOf c.store kv = some i) ∨ i ∈ done := by
    intro i
    rw [(ho.toggl _).mem_iff, mem_addAll, mem_addAll]
    simp only [List.not_mem_nil, false_or, List.mem_filterMap, (ho.hset hs).mem_iff]
  have hdone : ∀ i ∈ done, i ∈ hg := fun i h => by
    rcases k5 i h with h | h
    · cases h
    · exact (ho.hg hg).mem_iff.1 h
  have htog : ∀ kv ∈ hs, ∀ i, togOf c.store kv = some i → i ∉ hg ∧ pairOf c.store i = kv := by
    intro kv hkv i h
    obtain ⟨ve, -, -, hp⟩ := togOf_some hi h
    refine ⟨fun hm => ?_, hp⟩
    exact ((k3 kv).1 hkv).2 i ((ho.hg hg).mem_iff.2 hm) hp
  have hsub : ∀ x ∈ hs, x ∈ headersSet headers := fun x h => ((k3 x).1 h).1
  have hnd : (o.toggl (done.foldl addSet (((o.hset hs).filterMap (togOf c.store)).foldl addSet []))).Nodup :=
    (ho.toggl _).nodup_iff.2 (nodup_addAll (nodup_addAll List.nodup_nil))
  refine ⟨{ toggl := o.toggl (done.foldl addSet (((o.hset hs).filterMap (togOf c.store)).foldl addSet [])),
            clone := (o.hset hs).filterMap (cloneOf c.store), kvsto := (o.hset hs).filter (isKvsto c.store),
            eref := (o.hset hs).filter isEref }, ?_, ?_⟩
  · simp only [makeInstructions, bind, Except.bind, group_ok.2 hhg, e, foldl_makeOne, List.nil_append, pure, Except.pure]
  have hclone : ∀ k v, Op.clone k v ∈ ((o.hset hs).filterMap (cloneOf c.store)).map (fun x => Op.clone x.1 x.2) →
      ∃ kv ∈ hs, kv.2 = v ∧ k < 2 ^ 16 ∧ c.store.keyIdx.get? k = some kv.1 ∧ cloneOf c.store kv = some (k, v) := by
    intro k v h
    rw [List.mem_map] at h
    obtain ⟨p, hp, hpe⟩ := h
    rw [List.mem_filterMap] at hp
    obtain ⟨kv, hkv, hc⟩ := hp
    rw [(ho.hset hs).mem_iff] at hkv
    obtain ⟨ke, hke, rfl⟩ := cloneOf_some hc
    simp only [Op.clone.injEq] at hpe
    obtain ⟨rfl, rfl⟩ := hpe
    obtain ⟨h1, h2⟩ := hi.key kv.1 ke hke (hst kv (hsub kv hkv))
    exact ⟨kv, hkv, rfl, h1, h2, hc⟩
  have hlits : ∀ x, x ∈ (Instrs.lits
        ⟨o.toggl (done.foldl addSet (((o.hset hs).filterMap (togOf c.store)).foldl addSet [])),
          (o.hset hs).filterMap (cloneOf c.store), (o.hset hs).filter (isKvsto c.store), (o.hset hs).filter isEref⟩).map (litOf c.store) ↔
      x ∈ hs ∧ ((∃ p, cloneOf c.store x = some p) ∨ isKvsto c.store x = true ∨ isEref x = true) := by
    intro x
    simp only [Instrs.lits, List.map_append, List.mem_append, List.mem_map (f := litOf c.store)]
    constructor
    · rintro ((⟨op, hop, rfl⟩ | ⟨op, hop, rfl⟩) | ⟨op, hop, rfl⟩)
      · obtain ⟨p, hp, hpe⟩ := List.mem_map.1 hop
        subst hpe
        obtain ⟨kv, hkv, h1, h2, h3, h4⟩ := hclone _ _ hop
        have : litOf c.store (Op.clone p.1 p.2) = kv := by simp [litOf, h3, ← h1]
        rw [this]
        exact ⟨hkv, .inl ⟨_, h4⟩⟩
      · obtain ⟨kv, hkv, rfl⟩ := List.mem_map.1 hop
        rw [List.mem_filter, (ho.hset hs).mem_iff] at hkv
        exact ⟨hkv.1, .inr (.inl hkv.2)⟩
      · obtain ⟨kv, hkv, rfl⟩ := List.mem_map.1 hop
        rw [List.mem_filter, (ho.hset hs).mem_iff] at hkv
        exact ⟨hkv.1, .inr (.inr hkv.2)⟩
    · rintro ⟨hx, ⟨p, hp⟩ | h | h⟩
      · have hop : Op.clone p.1 p.2 ∈ ((o.hset hs).filterMap (cloneOf c.store)).map (fun x => Op.clone x.1 x.2) :=
          List.mem_map_of_mem (List.mem_filterMap.2 ⟨x, (ho.hset hs).mem_iff.2 hx, hp⟩)
        refine .inl (.inl ⟨_, hop, ?_⟩)
        obtain ⟨ke, hke, rfl⟩ := cloneOf_some hp
        obtain ⟨-, h2⟩ := hi.key x.1 ke hke (hst x (hsub x hx))
        simp [litOf, h2]
      · refine .inl (.inr ⟨Op.kvsto x.1 x.2, List.mem_map.2 ⟨x, List.mem_filter.2 ⟨(ho.hset hs).mem_iff.2 hx, h⟩, rfl⟩, rfl⟩)
      · refine .inr ⟨Op.eref x.1 x.2, List.mem_map.2 ⟨x, List.mem_filter.2 ⟨(ho.hset hs).mem_iff.2 hx, h⟩, rfl⟩, rfl⟩
  have hkinds := kinds_length c.store (o.hset hs)
  rw [(ho.hset hs).length_eq] at hkinds
  have hle : ∀ (l : List Nat) (s : List Nat), (l.foldl addSet s).length ≤ s.length + l.length := by
    intro l
    induction l with
    | nil => intro s; simp
    | cons x l ih =>
      intro s
      have h1 := ih (addSet s x)
      have h2 : (addSet s x).length ≤ s.length + 1 := by
        unfold addSet
        split <;> simp
      rw [List.foldl_cons, List.length_cons]
      omega
  have hsd : ∀ i, i ∈ symDiff ((o.toggl (done.foldl addSet (((o.hset hs).filterMap (togOf c.store)).foldl addSet []))).foldl
      addSet []) hg ↔ (i ∈ hg ∧ i ∉ done) ∨ ∃ kv ∈ hs, togOf c.store kv = some i := by
    intro i
    rw [mem_symDiff (asc_nodup hasc), mem_addAll, hT i]
    constructor
    · rintro (⟨h1, h2⟩ | ⟨h1, h2⟩)
      · rcases h1 with h1 | h1 | h1
        · cases h1
        · exact .inr h1
        · exact absurd (hdone i h1) h2
      · exact .inl ⟨h2, fun hd => h1 (.inr (.inr hd))⟩
    · rintro (⟨h1, h2⟩ | ⟨kv, hkv, h⟩)
      · refine .inr ⟨?_, h1⟩
        rintro (h | ⟨kv, hkv, h⟩ | h)
        · cases h
        · exact (htog kv hkv i h).1 h1
        · exact h2 h
      · exact .inl ⟨.inr (.inl ⟨kv, hkv, h⟩), (htog kv hkv i h).1⟩
  constructor
  · exact hnd
  · intro i h
    rcases (hT i).1 h with ⟨kv, hkv, h⟩ | h
    · obtain ⟨ve, hm, he, -⟩ := togOf_some hi h
      exact ⟨ve, hm, he⟩
    · exact hi.mem gid hg hhg i (hdone i h)
  · intro k v h
    simp only [Instrs.lits, List.mem_append] at h
    rcases h with (h | h) | h
    · obtain ⟨kv, -, -, h1, h2, -⟩ := hclone k v h
      exact ⟨h1, by rw [h2]; rfl⟩
    · obtain ⟨x, -, hx⟩ := List.mem_map.1 h
      cases hx
    · obtain ⟨x, -, hx⟩ := List.mem_map.1 h
      cases hx
  · intro op hop
    exact hsub _ ((hlits _).1 (List.mem_map_of_mem hop)).1
  · intro x
    rw [List.mem_append, hlits x, List.mem_map]
    simp only [hsd]
    constructor
    · rintro (⟨i, (⟨h1, h2⟩ | ⟨kv, hkv, h⟩), rfl⟩ | ⟨h, -⟩)
      · exact ((k6 _).1 ⟨i, (ho.hg hg).mem_iff.2 h1, h2, rfl⟩).1
      · rw [(htog kv hkv i h).2]
        exact hsub kv hkv
      · exact hsub x h
    · intro hx
      by_cases hk : ∃ i ∈ o.hg hg, pairOf c.store i = x
      · obtain ⟨i, h1, h2, h3⟩ := (k6 x).2 ⟨hx, hk⟩
        exact .inl ⟨i, .inl ⟨(ho.hg hg).mem_iff.1 h1, h2⟩, h3⟩
      · have hxs : x ∈ hs := (k3 x).2 ⟨hx, fun i h1 h2 => hk ⟨i, h1, h2⟩⟩
        rcases kinds_cover c.store x with ⟨i, h⟩ | h
        · exact .inl ⟨i, .inr ⟨x, hxs, h⟩, (htog x hxs i h).2⟩
        · exact .inr ⟨hxs, h⟩
  · dsimp only
    rw [(ho.toggl _).length_eq]
    have h1 := hle done (((o.hset hs).filterMap (togOf c.store)).foldl addSet [])
    have h2 := hle ((o.hset hs).filterMap (togOf c.store)) []
    have h3 : done.length ≤ hg.length := (List.subperm_of_subset k2 hdone).length_le
    simp only [List.length_nil] at h2
    omega
  · dsimp only
    omega
  · dsimp only
    have h1 : (symDiff ((o.toggl (done.foldl addSet (((o.hset hs).filterMap (togOf c.store)).foldl addSet []))).foldl
        addSet []) hg).length ≤ (((o.hg hg).filter (· ∉ done)) ++ (o.hset hs).filterMap (togOf c.store)).length := by
      refine (List.subperm_of_subset (nodup_symDiff (nodup_addAll List.nodup_nil)) ?_).length_le
      intro i h
      rw [List.mem_append, List.mem_filter, List.mem_filterMap]
      rcases (hsd i).1 h with ⟨h1, h2⟩ | ⟨kv, hkv, h⟩
      · exact .inl ⟨(ho.hg hg).mem_iff.2 h1, by simpa using h2⟩
      · exact .inr ⟨kv, (ho.hset hs).mem_iff.2 hkv, h⟩
    rw [List.length_append] at h1
    omega

end Verif.Delta1
