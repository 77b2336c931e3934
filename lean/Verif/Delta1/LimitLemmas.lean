import Verif.Delta1.TotalLemmas
/-
What stays within the limits of delta, and in how many groups an entry is.
-/
namespace Verif.Delta1
open Verif Verif.Delta2 Verif.Huff

/-- The steps of a message that change the codec. -/
theorem makeOperations_split {ordG : List GEvent → List Nat} {o : Orders} (ho : o.Ok) {c c' : Codec} (hi : Inv c)
    {headers : Dict Str Str} (hst : ∀ x ∈ headersSet headers, x.1 ≠ c.store.staticKey) {gid : Nat} {g : Instrs}
    (h : makeOperations ordG o c headers gid = .ok (c', g)) :
    ∃ hg kvs c3, (findOrMake c gid).groups.get? gid = some hg ∧ Made (findOrMake c gid) hg headers g ∧
      (∀ kv ∈ kvs, kv ∈ headersSet headers) ∧
      storeAll gid kvs (toggledC (findOrMake c gid) gid hg g.toggl) = .ok c3 ∧ adjust ordG c3 gid = .ok c' := by
  obtain ⟨i1, s1, st1, ⟨hg, eg⟩, -⟩ := findOrMake_inv hi gid
  obtain ⟨g', e1, hm⟩ := makeInstructions_spec i1 eg ho (headers := headers) (fun x hx => by rw [s1.1]; exact hst x hx)
  have htog : (g'.toggl.map Op.toggl).flatMap Op.toggled = g'.toggl := by
    simp [List.flatMap_map, Op.toggled]
  have hex := execute_eq i1 eg ho.onC (g'.toggl.map .toggl) g'.lits (by simp [Op.isToggle]) (lits_isToggle g')
    (fun k v h => (hm.key k v h).2) (by rw [htog]; exact hm.nd) (by rw [htog]; exact hm.mem)
  rw [htog] at hex
  simp only [makeOperations, bind, Except.bind, e1, ops_flat, hex] at h
  cases h3 : storeAll gid ((g'.lits.filter Op.isStored).map (litOf (findOrMake c gid).store))
      (toggledC (findOrMake c gid) gid hg g'.toggl) with
  | error e => rw [h3] at h; simp [Except.map] at h
  | ok c3 =>
    rw [h3] at h
    simp only [Except.map] at h
    cases h4 : adjust ordG c3 gid with
    | error e => rw [h4] at h; cases h
    | ok c4 =>
      rw [h4] at h
      simp only [pure, Except.pure, Except.ok.injEq, Prod.mk.injEq] at h
      obtain ⟨rfl, rfl⟩ := h
      refine ⟨hg, _, c3, eg, hm, fun kv hkv => ?_, h3, h4⟩
      rw [List.mem_map] at hkv
      obtain ⟨op, hop, rfl⟩ := hkv
      exact hm.lits op (List.mem_filter.1 hop).1

/-! ### The size -/

/-- What the code takes for the size is within the limit. -/
def Sized (c : Codec) : Prop := c.store.stateSize ≤ c.store.maxSize ∧ 0 ≤ c.store.maxVals

theorem Sized.congr {c c' : Codec} (h : Sized c) (hs : Same c c') (hl : c'.store.stateSize ≤ c.store.stateSize) : Sized c' := by
  unfold Sized at *
  rw [hs.2.2.1, hs.2.2.2]
  omega

theorem popLoop_size (adding : Int) (fuel : Nat) : ∀ {c c' : Codec} {r : Bool}, popLoop adding fuel c = .ok (c', r) →
    c'.store.stateSize ≤ c.store.stateSize := by
  induction fuel with
  | zero => intro c c' r h; cases h
  | succ fuel ih =>
    intro c c' r h
    unfold popLoop at h
    split at h
    · simp only [bind, Except.bind] at h
      split at h
      · cases h
      · rename_i o ho
        cases o with
        | none =>
          simp only [pure, Except.pure, Except.ok.injEq, Prod.mk.injEq] at h
          rw [← h.1]
        | some c1 =>
          refine Int.le_trans (ih h) ?_
          unfold popOne at ho
          split at ho
          · cases ho
          · simp only [bind, Except.bind] at ho
            split at ho
            · cases ho
            · simp only [pure, Except.pure, Except.ok.injEq, Option.some.injEq] at ho
              subst ho
              exact removeVal_size _ _ _
    · simp only [Except.ok.injEq, Prod.mk.injEq] at h
      rw [← h.1]

theorem makeSpace_size {c c' : Codec} {space : Nat} {adding : Int} (hi : Inv c) (h : makeSpace c space adding = .ok c') :
    c'.store.stateSize ≤ c.store.stateSize ∧
      (adding ≤ c.store.maxVals → c'.store.stateSize + space ≤ c'.store.maxSize) := by
  simp only [makeSpace, bind, Except.bind] at h
  split at h
  · cases h
  · rename_i p hp
    obtain ⟨c1, r⟩ := p
    have h1 := popLoop_size _ _ hp
    obtain ⟨i1, s1, -, -, hr, -, -⟩ := popLoop_spec _ _ hi hp
    dsimp only at h
    cases r with
    | true =>
      simp only [if_true, pure, Except.pure, Except.ok.injEq] at h
      subst h
      refine ⟨h1, fun hadd => ?_⟩
      exfalso
      -- the loop cannot end for want of entries
      have hcnt := i1.cnt
      have hl := hr rfl
      rw [hl] at hcnt
      clear h1
      have key : ∀ (fuel : Nat) {c c' : Codec}, popLoop adding fuel c = .ok (c', true) →
          c'.store.numVals + adding > c'.store.maxVals := by
        intro fuel
        induction fuel with
        | zero => intro c c' h; cases h
        | succ fuel ih =>
          intro c c' h
          unfold popLoop at h
          split at h
          · rename_i hgt
            simp only [bind, Except.bind] at h
            split at h
            · cases h
            · rename_i o ho
              cases o with
              | none =>
                simp only [pure, Except.pure, Except.ok.injEq, Prod.mk.injEq, and_true] at h
                subst h
                exact hgt
              | some c1 => exact ih h
          · simp at h
      have := key _ hp
      rw [s1.2.2.1] at this
      simp only [List.length_nil] at hcnt
      omega
    | false =>
      simp only [Bool.false_eq_true, if_false] at h
      split at h
      · cases h
      · rename_i hle
        simp only [pure, Except.pure, Except.ok.injEq] at h
        subst h
        exact ⟨h1, fun _ => by omega⟩

theorem findOrAddKey_size {c c' : Codec} {key : Str} (hi : Inv c) (hz : Sized c) (h : findOrAddKey c key = .ok c') : Sized c' := by
  unfold findOrAddKey at h
  split at h
  · cases h; exact hz
  · simp only [bind, Except.bind] at h
    split at h
    · cases h
    · rename_i c1 h1
      obtain ⟨-, hfit⟩ := makeSpace_size hi h1
      obtain ⟨-, s1, -⟩ := makeSpace_spec hi h1
      have hfit := hfit hz.2
      split at h
      · cases h
      · rename_i st hst
        simp only [newKE, bind, Except.bind] at hst
        split at hst
        · cases hst
        · simp only [pure, Except.pure, Except.ok.injEq] at hst
          subst hst
          split at h
          · cases h
          · simp only [pure, Except.pure, Except.ok.injEq] at h
            subst h
            refine ⟨?_, ?_⟩
            · exact hfit
            · show 0 ≤ c1.store.maxVals
              rw [s1.2.2.1]
              exact hz.2

theorem insertVal_size {c c' : Codec} {key val : Str} {new : Bool} (hi : Inv c) (hz : Sized c)
    (h : insertVal c key val = .ok (c', new)) : Sized c' := by
  simp only [insertVal, bind, Except.bind] at h
  split at h
  · cases h
  · rename_i c1 h1
    have z1 := findOrAddKey_size hi hz h1
    obtain ⟨i1, -⟩ := findOrAddKey_spec hi h1
    split at h
    · cases h; exact z1
    · split at h
      · cases h
      · rename_i c2 h2
        simp only [pure, Except.pure, Except.ok.injEq, Prod.mk.injEq] at h
        obtain ⟨rfl, -⟩ := h
        obtain ⟨i2, s2, -⟩ := refCnt_inv i1 key 1
        obtain ⟨-, s3, -⟩ := makeSpace_spec i2 h2
        have z2 := (makeSpace_size i2 h2).1
        have f1 := refCnt_fields c1.store key 1
        have f2 := refCnt_fields { c2.store with numVals := c2.store.numVals + 1 } key (-1)
        refine z1.congr (c' := { c2 with store := refCnt { c2.store with numVals := c2.store.numVals + 1 } key (-1) }) ?_ ?_
        · refine (s2.trans s3).trans ⟨f2.2.2.1, f2.2.1, f2.2.2.2.2.2.2.2.1, f2.2.2.2.2.2.2.2.2.1⟩
        · dsimp only
          rw [f2.2.2.2.2.2.2.2.2.2.1]
          dsimp only at z2 ⊢
          rw [f1.2.2.2.2.2.2.2.2.2.1] at z2
          exact z2

theorem storeOne_size {c c' : Codec} {gid : Nat} {kv : Hdr} (hi : Inv c) (hz : Sized c) (h : storeOne gid c kv = .ok c') :
    Sized c' := by
  simp only [storeOne, bind, Except.bind] at h
  split at h
  · cases h
  · rename_i p h1
    obtain ⟨c1, new⟩ := p
    have z1 := insertVal_size hi hz h1
    cases new with
    | false =>
      simp only [Bool.false_eq_true, if_false, pure, Except.pure, Except.ok.injEq] at h
      subst h
      exact z1
    | true =>
      simp only [if_true] at h
      split at h
      · cases h
      · rename_i q h2
        simp only [addToHead, bind, Except.bind] at h2
        split at h2
        · cases h2
        · simp only [pure, Except.pure, Except.ok.injEq] at h2
          subst h2
          simp only [doToggle, bind, Except.bind] at h
          split at h
          · cases h
          · split at h
            · cases h
            · simp only [pure, Except.pure, Except.ok.injEq] at h
              subst h
              exact z1

theorem storeAll_size (gid : Nat) (kvs : List Hdr) : ∀ {c c' : Codec}, Inv c → Sized c → storeAll gid kvs c = .ok c' → Sized c' := by
  induction kvs with
  | nil => intro c c' _ hz h; cases h; exact hz
  | cons kv kvs ih =>
    intro c c' hi hz h
    simp only [storeAll, bind, Except.bind] at h
    split at h
    · cases h
    · rename_i c1 h1
      exact ih (storeOne_spec hi h1).1 (storeOne_size hi hz h1) h

theorem renumberAll_size {ordG : List GEvent → List Nat} (gid : Nat) (is : List Nat) : ∀ {c c' : Codec},
    renumberAll ordG gid is c = .ok c' → c'.store.stateSize = c.store.stateSize := by
  induction is with
  | nil => intro c c' h; cases h; rfl
  | cons i is ih =>
    intro c c' h
    simp only [renumberAll, bind, Except.bind] at h
    split at h
    · cases h
    · rename_i c1 h1
      rw [ih h]
      simp only [renumber, bind, Except.bind] at h1
      split at h1
      · cases h1
      · split at h1
        · cases h1
        · split at h1
          · cases h1
          · split at h1
            · cases h1
            · simp only [pure, Except.pure, Except.ok.injEq] at h1
              subst h1
              rfl

theorem adjust_size {ordG : List GEvent → List Nat} {gid : Nat} {c c' : Codec} (h : adjust ordG c gid = .ok c') :
    c'.store.stateSize = c.store.stateSize := by
  simp only [adjust, bind, Except.bind] at h
  split at h
  · cases h
  · exact renumberAll_size _ _ h

/-! ### Groups -/

/-- Each entry is in at most one group, or is yet to be given a new index. -/
def Single (c : Codec) (is : List Nat) : Prop := ∀ ve ∈ c.store.lru, (groupsOf ve.hist).length ≤ 1 ∨ ve.idx ∈ is

theorem renumberAll_single {ordG : List GEvent → List Nat} (gid : Nat) (is : List Nat) : ∀ {c c' : Codec}, Single c is →
    renumberAll ordG gid is c = .ok c' → Single c' [] := by
  induction is with
  | nil => intro c c' hs h; cases h; exact hs
  | cons i is ih =>
    intro c c' hs h
    simp only [renumberAll, bind, Except.bind] at h
    split at h
    · cases h
    · rename_i c1 h1
      refine ih ?_ h
      simp only [renumber, bind, Except.bind] at h1
      split at h1
      · cases h1
      · split at h1
        · cases h1
        · split at h1
          · cases h1
          · split at h1
            · cases h1
            · simp only [pure, Except.pure, Except.ok.injEq] at h1
              subst h1
              intro ve hve
              simp only [List.mem_append, List.mem_singleton] at hve
              rcases hve with hve | rfl
              · rw [List.mem_filter] at hve
                rcases hs ve hve.1 with h | h
                · exact .inl h
                · rcases List.mem_cons.1 h with h | h
                  · simp [h] at hve
                  · exact .inr h
              · left
                dsimp only
                rw [groupsOf_renumbered]
                exact Nat.le_refl 1

/-- Each entry is in at most one group, or in the given one. -/
def Nearly (gid : Nat) (c : Codec) : Prop := ∀ ve ∈ c.store.lru, (groupsOf ve.hist).length ≤ 1 ∨ gid ∈ groupsOf ve.hist

theorem adjust_single {ordG : List GEvent → List Nat} {gid : Nat} {c c' : Codec} (hi : Inv c) (hn : Nearly gid c)
    (h : adjust ordG c gid = .ok c') : Single c' [] := by
  simp only [adjust, bind, Except.bind] at h
  split at h
  · cases h
  · rename_i hg hhg
    refine renumberAll_single gid hg (fun ve hve => ?_) h
    rcases hn ve hve with h | h
    · exact .inl h
    · obtain ⟨hg', e, hm⟩ := (hi.hist ve hve gid).1 h
      rw [group_ok.1 hhg] at e
      cases e
      exact .inr hm

theorem toggledC_nearly {c : Codec} (hs : Single c []) (gid : Nat) (hg S : List Nat) : Nearly gid (toggledC c gid hg S) := by
  intro ve hve
  simp only [toggledC, List.mem_map] at hve
  obtain ⟨ve0, h0, rfl⟩ := hve
  have h1 : (groupsOf ve0.hist).length ≤ 1 := by simpa using hs ve0 h0
  split
  · simp only [flip]
    rw [groupsOf_snoc]
    split
    · left
      exact Nat.le_trans (List.length_filter_le _ _) h1
    · right
      simp only [groupStep]
      rw [mem_addSet]
      simp
  · exact .inl h1

theorem storeOne_nearly {c c' : Codec} {gid : Nat} {kv : Hdr} (hi : Inv c) (hn : Nearly gid c) (h : storeOne gid c kv = .ok c') :
    Nearly gid c' := by
  simp only [storeOne, bind, Except.bind] at h
  split at h
  · cases h
  · rename_i p h1
    obtain ⟨c1, new⟩ := p
    obtain ⟨-, -, hk1, ⟨n, hl⟩, -, p1, p2⟩ := insertVal_spec hi h1
    have n1 : Nearly gid c1 := by
      intro ve hve
      rw [hl] at hve
      exact hn ve (List.mem_of_mem_drop hve)
    cases new with
    | false =>
      simp only [Bool.false_eq_true, if_false, pure, Except.pure, Except.ok.injEq] at h
      subst h
      exact n1
    | true =>
      simp only [if_true] at h
      split at h
      · cases h
      · rename_i q h2
        obtain ⟨c2, i⟩ := q
        obtain ⟨i2, -, -, l2, -⟩ := addToHead_spec (p2 rfl).1 hk1 h2
        have hfind : lookup c2.store i = .ok ⟨i, kv.1, kv.2, []⟩ := by
          have := lookup_ok i2 (ve := ⟨i, kv.1, kv.2, []⟩) (by rw [l2]; simp)
          exact this
        simp only [doToggle, bind, Except.bind, hfind] at h
        split at h
        · cases h
        · simp only [pure, Except.pure, Except.ok.injEq] at h
          subst h
          intro ve hve
          simp only [Store.update, List.mem_map] at hve
          obtain ⟨ve0, h0, rfl⟩ := hve
          split
          · rename_i hidx
            have : ve0 = ⟨i, kv.1, kv.2, []⟩ := idx_inj i2 h0 (by rw [l2]; simp) hidx
            subst this
            right
            simp [groupsOf, groupStep, mem_addSet]
          · rename_i hidx
            rw [l2, List.mem_append, List.mem_singleton] at h0
            rcases h0 with h0 | rfl
            · exact n1 ve0 h0
            · exact absurd rfl hidx

theorem storeAll_nearly (gid : Nat) (kvs : List Hdr) : ∀ {c c' : Codec}, Inv c → Nearly gid c → storeAll gid kvs c = .ok c' →
    Nearly gid c' := by
  induction kvs with
  | nil => intro c c' _ hz h; cases h; exact hz
  | cons kv kvs ih =>
    intro c c' hi hz h
    simp only [storeAll, bind, Except.bind] at h
    split at h
    · cases h
    · rename_i c1 h1
      exact ih (storeOne_spec hi h1).1 (storeOne_nearly hi hz h1) h

theorem findOrMake_store (c : Codec) (gid : Nat) : (findOrMake c gid).store = c.store := by
  unfold findOrMake; split <;> rfl

theorem compress_limits {u : Setup} {c c' : Compressor} (hi : Inv c.codec) (hs : c.codec.store.staticKey = u.staticKey) {m : Message} (hm : MessageOk u m) {blob : Str}
    (h : compress u c m = .ok (c', blob)) :
    (Sized c.codec → Sized c'.codec) ∧ (Single c.codec [] → Single c'.codec []) := by
  have hgc : (groupOf u c m.host).1.codec = c.codec := by
    unfold groupOf; split <;> rfl
  simp only [compress, bind, Except.bind] at h
  split at h
  · cases h
  · rename_i p h1
    obtain ⟨codec, g⟩ := p
    dsimp only at h
    split at h
    · cases h
    · simp only [pure, Except.pure, Except.ok.injEq, Prod.mk.injEq] at h
      obtain ⟨rfl, -⟩ := h
      rw [hgc] at h1
      dsimp only
      obtain ⟨hg, kvs, c3, eg, hmade, -, h3, h4⟩ := makeOperations_split hm.orders hi
        (fun x hx => by rw [hs]; exact headersSet_names hm.names x hx) h1
      generalize (groupOf u c m.host).2 = gid at *
      obtain ⟨i1, s1, st1, -⟩ := findOrMake_inv hi gid
      obtain ⟨i2, s2, -⟩ := toggledC_inv i1 g.toggl eg hmade.nd hmade.mem
      obtain ⟨i3, s3, -⟩ := storeAll_spec gid kvs i2 h3
      constructor
      · intro hz
        have z2 : Sized (toggledC (findOrMake c.codec gid) gid hg g.toggl) :=
          hz.congr (s1.trans s2) (by simp only [toggledC]; rw [st1])
        have z3 := storeAll_size gid kvs i2 z2 h3
        have e := adjust_size h4
        have : c3.store.maxVals = codec.store.maxVals ∧ c3.store.maxSize = codec.store.maxSize := by
          have : Same c3 codec := by
            simp only [adjust, bind, Except.bind] at h4
            split at h4
            · cases h4
            · clear e z3 z2 hz h3 i2 s2 s3
              rename_i l _
              have key : ∀ (is : List Nat) {a b : Codec}, renumberAll u.ordG gid is a = .ok b → Same a b := by
                intro is
                induction is with
                | nil => intro a b h; cases h; exact Same.refl _
                | cons i is ih =>
                  intro a b h
                  simp only [renumberAll, bind, Except.bind] at h
                  split at h
                  · cases h
                  · rename_i c1 hc1
                    refine Same.trans ?_ (ih h)
                    simp only [renumber, bind, Except.bind] at hc1
                    split at hc1
                    · cases hc1
                    · split at hc1
                      · cases hc1
                      · split at hc1
                        · cases hc1
                        · split at hc1
                          · cases hc1
                          · simp only [pure, Except.pure, Except.ok.injEq] at hc1
                            subst hc1
                            exact ⟨rfl, rfl, rfl, rfl⟩
              exact key _ h4
          exact ⟨this.2.2.1.symm, this.2.2.2.symm⟩
        unfold Sized at *
        rw [e, ← this.1, ← this.2]
        exact z3
      · intro h1
        have h1' : Single (findOrMake c.codec gid) [] := by unfold Single; rw [st1]; exact h1
        exact adjust_single i3 (storeAll_nearly gid kvs i2 (toggledC_nearly h1' gid hg g.toggl) h3) h4

theorem session_limits {u : Setup} (hG : GroupOrder u.ordG) {codes : List (List Bool)} (hc : Codes u.huffman codes)
    (h257 : codes.length = 257) (ms : List Message) (hm : ∀ m ∈ ms, MessageOk u m) : ∀ {c c' : Compressor} {blobs : List Str},
    Inv c.codec → c.codec.store.staticKey = u.staticKey → HostsOk c → (∀ g, glen c.codec g ≤ 128) →
    compressAll u ms c = .ok (c', blobs) →
    (Sized c.codec → Sized c'.codec) ∧ (Single c.codec [] → Single c'.codec []) := by
  induction ms with
  | nil => intro c c' blobs _ _ _ _ h; cases h; exact ⟨id, id⟩
  | cons m ms ih =>
    intro c c' blobs hi hs hh hl h
    simp only [compressAll, bind, Except.bind] at h
    split at h
    · cases h
    · rename_i p h1
      obtain ⟨c1, b⟩ := p
      dsimp only at h
      split at h
      · cases h
      · rename_i q h2
        obtain ⟨c2, bs⟩ := q
        simp only [pure, Except.pure, Except.ok.injEq, Prod.mk.injEq] at h
        obtain ⟨rfl, -⟩ := h
        obtain ⟨i1, s1, hh1, hl1, -⟩ := compress_spec hG hc h257 hi hs hh hl (hm m (by simp)) h1
        obtain ⟨l1, l2⟩ := compress_limits hi hs (hm m (by simp)) h1
        obtain ⟨l3, l4⟩ := ih (fun m hm' => hm m (by simp [hm'])) i1 (s1.1.trans hs) hh1 hl1 h2
        exact ⟨fun h => l3 (l1 h), fun h => l4 (l2 h)⟩

end Verif.Delta1
