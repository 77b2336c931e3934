import Verif.Delta2.CodecLemmas
import Verif.Delta2.ToggleLemmas
/-
Making operations: what MakeOperations makes of headers denotes these headers.
-/
namespace Verif.Delta2
open Verif

/-! ### The loop over the header group -/

theorem hgLoop_spec {st : Storage} {a b m : Int} (h : StorageOk st a b m) (l : List Int) : ∀ (hs : List Hdr) (done : List Int),
    (∀ i ∈ l, Live st i) → (l ++ done).Nodup → hs.Nodup →
    ∃ hs' done', hgLoop st l hs done = .ok (hs', done') ∧ hs'.Nodup ∧ done'.Nodup ∧
      (∀ i ∈ done', i ∈ l ∨ i ∈ done) ∧ (∀ x ∈ hs', x ∈ hs) ∧
      (∀ x ∈ hs, x ∉ hs' → ∃ i ∈ l, i ∉ done' ∧ kvAt st i = x) ∧
      (∀ i ∈ l, i ∉ done' → kvAt st i ∈ hs) ∧ (∀ i ∈ l, kvAt st i ∉ hs') := by
  induction l with
  | nil =>
    intro hs done _ hn hh
    exact ⟨hs, done, rfl, hh, by simpa using hn, fun i hi => .inr hi, fun x hx => hx, fun x hx hx' => absurd hx hx', by simp, by simp⟩
  | cons i l ih =>
    intro hs done hl hn hh
    obtain ⟨e, he⟩ := lookup_live h (hl i (by simp))
    have hk := kvAt_ok he
    have hl' : ∀ j ∈ l, Live st j := fun j hj => hl j (by simp [hj])
    rw [List.cons_append, List.nodup_cons] at hn
    obtain ⟨hil, hn⟩ := hn
    rw [List.mem_append, not_or] at hil
    by_cases hm : (e.kv.key, e.kv.val) ∈ hs
    · obtain ⟨hs', done', e1, h1, h2, h3, h4, h5, h6, h7⟩ := ih (hs.filter (· ≠ (e.kv.key, e.kv.val))) done hl' hn (hh.filter _)
      have hnd : i ∉ done' := by
        intro hi
        rcases h3 i hi with hi | hi
        · exact hil.1 hi
        · exact hil.2 hi
      refine ⟨hs', done', by simp only [hgLoop, bind, Except.bind, he, if_pos hm, e1], h1, h2, ?_, ?_, ?_, ?_, ?_⟩
      · intro j hj
        rcases h3 j hj with hj | hj
        · exact .inl (by simp [hj])
        · exact .inr hj
      · intro x hx
        exact List.mem_of_mem_filter (h4 x hx)
      · intro x hx hx'
        by_cases hxe : x = (e.kv.key, e.kv.val)
        · exact ⟨i, by simp, hnd, by rw [hk, hxe]⟩
        · obtain ⟨j, hj, h'⟩ := h5 x (by simp [hx, hxe]) hx'
          exact ⟨j, by simp [hj], h'⟩
      · intro j hj hj'
        rcases List.mem_cons.1 hj with rfl | hj
        · rw [hk]
          exact hm
        · exact List.mem_of_mem_filter (h6 j hj hj')
      · intro j hj
        rcases List.mem_cons.1 hj with rfl | hj
        · intro hc
          have := h4 _ hc
          rw [hk] at this
          simp at this
        · exact h7 j hj
    · have had : addSet done i = done ++ [i] := by rw [addSet, if_neg hil.2]
      have hn' : (l ++ addSet done i).Nodup := by
        rw [had, ← List.append_assoc, List.nodup_append]
        refine ⟨hn, by simp, fun x hx y hy => ?_⟩
        simp only [List.mem_singleton] at hy
        subst hy
        rintro rfl
        rcases List.mem_append.1 hx with hx | hx
        · exact hil.1 hx
        · exact hil.2 hx
      obtain ⟨hs', done', e1, h1, h2, h3, h4, h5, h6, h7⟩ := ih hs (addSet done i) hl' hn' hh
      refine ⟨hs', done', by simp only [hgLoop, bind, Except.bind, he, if_neg hm, e1], h1, h2, ?_, h4, ?_, ?_, ?_⟩
      · intro j hj
        rcases h3 j hj with hj | hj
        · exact .inl (by simp [hj])
        · rcases mem_addSet.1 hj with hj | rfl
          · exact .inr hj
          · exact .inl (by simp)
      · intro x hx hx'
        obtain ⟨j, hj, h'⟩ := h5 x hx hx'
        exact ⟨j, by simp [hj], h'⟩
      · intro j hj hj'
        rcases List.mem_cons.1 hj with rfl | hj
        · exfalso
          exact hj' (hgLoop_keeps e1 j (by rw [mem_addSet]; exact .inr rfl))
        · exact h6 j hj hj'
      · intro j hj
        rcases List.mem_cons.1 hj with rfl | hj
        · intro hc
          have := h4 _ hc
          rw [hk] at this
          exact hm this
        · exact h7 j hj
where
  hgLoop_keeps {st : Storage} {l : List Int} : ∀ {hs : List Hdr} {done : List Int} {r : List Hdr × List Int},
      hgLoop st l hs done = .ok r → ∀ j ∈ done, j ∈ r.2 := by
    induction l with
    | nil =>
      intro hs done r h j hj
      simp only [hgLoop, Except.ok.injEq] at h
      subst h
      exact hj
    | cons i l ih =>
      intro hs done r h j hj
      simp only [hgLoop, bind, Except.bind] at h
      split at h
      · simp at h
      · split at h
        · exact ih h j hj
        · exact ih h j (mem_addSet.2 (.inl hj))

/-! ### The loop over the headers -/

/-- A clone operation for one of the headers. -/
def CloneOf (st : Storage) (oc : Opcode) (hs : List Hdr) (op : Op) : Prop :=
  ∃ k x, x ∈ hs ∧ Live st k ∧ (kvAt st k).1 = x.1 ∧ op = { opcode := oc, index := some k, val := some x.2 }

/-- A store operation for one of the headers. -/
def StoreOf (hs : List Hdr) (op : Op) : Prop :=
  ∃ x ∈ hs, op = { opcode := .skvsto, key := some x.1, val := some x.2 }

/-- The operations made for the headers `hs`; `is` are the indices of the toggles for this message. -/
structure MadeOk (st : Storage) (hs : List Hdr) (m : Made) (is : List Int) : Prop where
  etoggl : m.etoggl = is.map (toggle .etoggl)
  nodup : (m.stoggls ++ is).Nodup
  live : ∀ i ∈ m.stoggls ++ is, Live st i ∧ kvAt st i ∈ hs
  sclone : ∀ op ∈ m.sclone, CloneOf st .sclone hs op
  eclone : ∀ op ∈ m.eclone, CloneOf st .eclone hs op
  skvsto : ∀ op ∈ m.skvsto, StoreOf hs op
  cover : ∀ x ∈ hs, (∃ i ∈ m.stoggls ++ is, kvAt st i = x) ∨
    ∃ op, (op ∈ m.sclone ∨ op ∈ m.eclone ∨ op ∈ m.skvsto) ∧ opPairs st op = [x]

theorem CloneOf.mono {st : Storage} {oc : Opcode} {hs hs' : List Hdr} {op : Op} (h : CloneOf st oc hs op) (hsub : ∀ x ∈ hs, x ∈ hs') :
    CloneOf st oc hs' op := by
  obtain ⟨k, x, h1, h2⟩ := h
  exact ⟨k, x, hsub x h1, h2⟩

theorem StoreOf.mono {hs hs' : List Hdr} {op : Op} (h : StoreOf hs op) (hsub : ∀ x ∈ hs, x ∈ hs') : StoreOf hs' op := by
  obtain ⟨x, h1, h2⟩ := h
  exact ⟨x, hsub x h1, h2⟩

/-- One more header, for which one operation is made. -/
theorem MadeOk.extend {st : Storage} {hs : List Hdr} {m m' : Made} {is : List Int} (h : MadeOk st hs m is) (x : Hdr) (op : Op)
    (ht : m'.stoggls = m.stoggls) (he : m'.etoggl = m.etoggl)
    (h1 : m'.sclone = m.sclone ∨ (m'.sclone = m.sclone ++ [op] ∧ CloneOf st .sclone [x] op))
    (h2 : m'.eclone = m.eclone ∨ (m'.eclone = m.eclone ++ [op] ∧ CloneOf st .eclone [x] op))
    (h3 : m'.skvsto = m.skvsto ∨ (m'.skvsto = m.skvsto ++ [op] ∧ StoreOf [x] op))
    (hop : op ∈ m'.sclone ∨ op ∈ m'.eclone ∨ op ∈ m'.skvsto) (hp : opPairs st op = [x]) : MadeOk st (hs ++ [x]) m' is := by
  have hsub : ∀ y ∈ hs, y ∈ hs ++ [x] := by intro y hy; simp [hy]
  have hself : ∀ y ∈ [x], y ∈ hs ++ [x] := by intro y hy; simp only [List.mem_append]; exact .inr hy
  have old : ∀ o, (o ∈ m.sclone ∨ o ∈ m.eclone ∨ o ∈ m.skvsto) → (o ∈ m'.sclone ∨ o ∈ m'.eclone ∨ o ∈ m'.skvsto) := by
    rintro o (ho | ho | ho)
    · rcases h1 with h1 | ⟨h1, _⟩ <;> simp [h1, ho]
    · rcases h2 with h2 | ⟨h2, _⟩ <;> simp [h2, ho]
    · rcases h3 with h3 | ⟨h3, _⟩ <;> simp [h3, ho]
  refine ⟨he.trans h.etoggl, by rw [ht]; exact h.nodup, ?_, ?_, ?_, ?_, ?_⟩
  · intro i hi
    rw [ht] at hi
    exact ⟨(h.live i hi).1, hsub _ (h.live i hi).2⟩
  · intro o ho
    rcases h1 with h1 | ⟨h1, hc⟩
    · exact (h.sclone o (h1 ▸ ho)).mono hsub
    · rw [h1] at ho
      rcases List.mem_append.1 ho with ho | ho
      · exact (h.sclone o ho).mono hsub
      · simp only [List.mem_singleton] at ho
        subst ho
        exact hc.mono hself
  · intro o ho
    rcases h2 with h2 | ⟨h2, hc⟩
    · exact (h.eclone o (h2 ▸ ho)).mono hsub
    · rw [h2] at ho
      rcases List.mem_append.1 ho with ho | ho
      · exact (h.eclone o ho).mono hsub
      · simp only [List.mem_singleton] at ho
        subst ho
        exact hc.mono hself
  · intro o ho
    rcases h3 with h3 | ⟨h3, hc⟩
    · exact (h.skvsto o (h3 ▸ ho)).mono hsub
    · rw [h3] at ho
      rcases List.mem_append.1 ho with ho | ho
      · exact (h.skvsto o ho).mono hsub
      · simp only [List.mem_singleton] at ho
        subst ho
        exact hc.mono hself
  · intro y hy
    rcases List.mem_append.1 hy with hy | hy
    · rcases h.cover y hy with ⟨j, hj, e⟩ | ⟨o, ho, e⟩
      · exact .inl ⟨j, by rw [ht]; exact hj, e⟩
      · exact .inr ⟨o, old o ho, e⟩
    · simp only [List.mem_singleton] at hy
      subst hy
      exact .inr ⟨op, hop, hp⟩

theorem makeOne_spec {cfg : Config} {st : Storage} {a b c : Int} (h : StorageOk st a b c) {hs : List Hdr} {m : Made} {is : List Int}
    (hm : MadeOk st hs m is) {x : Hdr} (hx : x ∉ hs) : ∃ is', MadeOk st (hs ++ [x]) (makeOne cfg st m x) is' := by
  obtain ⟨k, v⟩ := x
  have hfresh : ∀ i, kvAt st i = (k, v) → i ∉ m.stoggls ++ is := by
    intro i hi hc
    have := (hm.live i hc).2
    rw [hi] at this
    exact hx this
  have hsub : ∀ y ∈ hs, y ∈ hs ++ [(k, v)] := by intro y hy; simp [hy]
  have hself : (k, v) ∈ hs ++ [(k, v)] := by simp
  rcases findEntryIdx_spec h k v with ⟨k', i, hf, hl, hk⟩ | ⟨i, hf, hl, hk⟩ | hf
  · have hi := hfresh i hk
    have hnot := hi
    rw [List.mem_append, not_or] at hnot
    by_cases ho : cfg.onlyEtoggles = true
    · have hmade : makeOne cfg st m (k, v) = { m with etoggl := m.etoggl ++ [toggle .etoggl i] } := by
        simp only [makeOne, hf, if_pos ho, toggle]
      rw [hmade]
      have hnd : (m.stoggls ++ (is ++ [i])).Nodup := by
        rw [← List.append_assoc, List.nodup_append]
        refine ⟨hm.nodup, by simp, fun y hy z hz => ?_⟩
        simp only [List.mem_singleton] at hz
        subst hz
        rintro rfl
        exact hi hy
      refine ⟨is ++ [i], ⟨?_, hnd, ?_, fun op ho => (hm.sclone op ho).mono hsub, fun op ho => (hm.eclone op ho).mono hsub,
        fun op ho => (hm.skvsto op ho).mono hsub, ?_⟩⟩
      · simp only [hm.etoggl, List.map_append, List.map_cons, List.map_nil]
      · intro j hj
        have hj : j ∈ m.stoggls ++ (is ++ [i]) := hj
        rw [← List.append_assoc] at hj
        rcases List.mem_append.1 hj with hj | hj
        · exact ⟨(hm.live j hj).1, hsub _ (hm.live j hj).2⟩
        · simp only [List.mem_singleton] at hj
          subst hj
          exact ⟨hl, by rw [hk]; exact hself⟩
      · intro y hy
        rcases List.mem_append.1 hy with hy | hy
        · rcases hm.cover y hy with ⟨j, hj, e⟩ | h'
          · refine .inl ⟨j, ?_, e⟩
            change j ∈ m.stoggls ++ (is ++ [i])
            rw [← List.append_assoc]
            exact List.mem_append_left _ hj
          · exact .inr h'
        · simp only [List.mem_singleton] at hy
          subst hy
          exact .inl ⟨i, by simp, hk⟩
    · have had : addSet m.stoggls i = m.stoggls ++ [i] := by rw [addSet, if_neg hnot.1]
      have hmade : makeOne cfg st m (k, v) = { m with stoggls := m.stoggls ++ [i] } := by
        simp only [makeOne, hf, if_neg ho, had]
      rw [hmade]
      have hperm : (m.stoggls ++ [i] ++ is).Perm (i :: (m.stoggls ++ is)) := by
        rw [List.append_assoc]
        exact List.perm_middle
      have hnd : (m.stoggls ++ [i] ++ is).Nodup := hperm.nodup_iff.2 (List.nodup_cons.2 ⟨hi, hm.nodup⟩)
      refine ⟨is, ⟨hm.etoggl, hnd, ?_, fun op ho => (hm.sclone op ho).mono hsub, fun op ho => (hm.eclone op ho).mono hsub,
        fun op ho => (hm.skvsto op ho).mono hsub, ?_⟩⟩
      · intro j hj
        rcases List.mem_cons.1 (hperm.subset hj) with rfl | hj
        · exact ⟨hl, by rw [hk]; exact hself⟩
        · exact ⟨(hm.live j hj).1, hsub _ (hm.live j hj).2⟩
      · intro y hy
        rcases List.mem_append.1 hy with hy | hy
        · rcases hm.cover y hy with ⟨j, hj, e⟩ | h'
          · exact .inl ⟨j, hperm.symm.subset (by simp only [List.mem_cons]; exact .inr hj), e⟩
          · exact .inr h'
        · simp only [List.mem_singleton] at hy
          subst hy
          exact .inl ⟨i, by simp, hk⟩
  · by_cases hp : k = b!":path"
    · have hmade : makeOne cfg st m (k, v) = { m with eclone := m.eclone ++ [{ opcode := .eclone, index := some i, val := some v }] } := by
        simp only [makeOne, hf, if_pos hp]
      rw [hmade]
      refine ⟨is, hm.extend (k, v) { opcode := .eclone, index := some i, val := some v } rfl rfl (.inl rfl)
        (.inr ⟨rfl, i, (k, v), by simp, hl, hk, rfl⟩) (.inl rfl) (by simp) ?_⟩
      simp only [opPairs, Option.getD_some, hk]
    · have hmade : makeOne cfg st m (k, v) = { m with sclone := m.sclone ++ [{ opcode := .sclone, index := some i, val := some v }] } := by
        simp only [makeOne, hf, if_neg hp]
      rw [hmade]
      refine ⟨is, hm.extend (k, v) { opcode := .sclone, index := some i, val := some v } rfl rfl
        (.inr ⟨rfl, i, (k, v), by simp, hl, hk, rfl⟩) (.inl rfl) (.inl rfl) (by simp) ?_⟩
      simp only [opPairs, Option.getD_some, hk]
  · have hmade : makeOne cfg st m (k, v) = { m with skvsto := m.skvsto ++ [{ opcode := .skvsto, key := some k, val := some v }] } := by
      simp only [makeOne, hf]
    rw [hmade]
    exact ⟨is, hm.extend (k, v) { opcode := .skvsto, key := some k, val := some v } rfl rfl (.inl rfl) (.inl rfl)
      (.inr ⟨rfl, (k, v), by simp, rfl⟩) (by simp) rfl⟩

theorem makeAll_spec {cfg : Config} {st : Storage} {a b c : Int} (h : StorageOk st a b c) (hs : List Hdr) (hn : hs.Nodup) :
    ∃ is, MadeOk st hs (hs.foldl (makeOne cfg st) {}) is := by
  induction hs using List.reverseRecOn with
  | nil => exact ⟨[], ⟨rfl, by simp, by simp, by simp, by simp, by simp, by simp⟩⟩
  | append_singleton hs x ih =>
    rw [List.nodup_append] at hn
    obtain ⟨is, hm⟩ := ih hn.1
    rw [List.foldl_append]
    exact makeOne_spec h hm (fun hx => hn.2.2 x hx x (by simp) rfl)

/-! ### The instructions -/

theorem xrange_interval (a b : Int) : xrange a (b + 1) = interval a b := rfl

theorem flatMap_ranges (new : Opcode) (f : Op → List Int) (hf : ∀ a b, f (range new a b) = interval a b) (rs : List (Int × Int)) :
    (rs.map fun r => range new r.1 r.2).flatMap f = rs.flatMap fun r => interval r.1 r.2 := by
  rw [List.flatMap_map]
  simp only [hf]

theorem flatMap_toggles (oc : Opcode) (f : Op → List Int) (hf : ∀ i, f (toggle oc i) = [i]) (is : List Int) :
    (is.map (toggle oc)).flatMap f = is := by
  rw [List.flatMap_map]
  simp only [hf, List.flatMap_singleton']

theorem flatMap_empty {α β : Type} (f : α → List β) (l : List α) (h : ∀ x ∈ l, f x = []) : l.flatMap f = [] := by
  rw [List.flatMap_eq_nil_iff]
  exact h

/-- The index fields of an operation are of entries. -/
def IdxLive (st : Storage) (op : Op) : Prop :=
  (∀ i, op.index = some i → Live st i) ∧ ∀ i, op.indexStart = some i → Live st i

/-- The strings of an operation are strings of bytes. -/
def BytesOk (op : Op) : Prop := (∀ s, op.key = some s → ∀ c ∈ s, c < 256) ∧ ∀ s, op.val = some s → ∀ c ∈ s, c < 256

theorem refs_logic {A T G D : Prop} (h1 : A ∨ T → ¬G) (h2 : A → ¬T) (h3 : D → G) :
    ((T ∧ ¬((G ∧ ¬(A ∨ D)) ∨ (¬G ∧ (A ∨ D)))) ∨ (¬T ∧ ((G ∧ ¬(A ∨ D)) ∨ (¬G ∧ (A ∨ D))))) ↔ (A ∨ T) ∨ (G ∧ ¬D) := by
  by_cases a : A <;> by_cases t : T <;> by_cases g : G <;> by_cases d : D <;> simp_all

/-- MakeOperations, before the translation of indices: the operations can be executed, and the headers they give, with those
referred to in the group afterwards, are the given ones. -/
theorem makeInstructions_spec {cfg : Config} (hi : cfg.maxIndex ≤ 2 ^ 16) {o : Orders} (ho : o.Ok) {s : Codec} (h : CodecOk cfg s) (headers : Dict Str Str)
    (hb : ∀ x ∈ headersSet headers, (∀ c ∈ x.1, c < 256) ∧ ∀ c ∈ x.2, c < 256) (gid : Nat) :
    ∃ gs, makeInstructions cfg o s headers gid = .ok gs ∧
      (∀ g ∈ gs, ∀ op ∈ g.2, op.opcode = g.1 ∧ Shaped op ∧ IdxLive s.storage op ∧ BytesOk op) ∧
      Runnable s.storage (gs.flatMap (·.2)) ∧
      ∀ x, (x ∈ (gs.flatMap (·.2)).flatMap (opPairs s.storage) ∨
        ∃ i ∈ refsOf (s.group gid) (gs.flatMap (·.2)), kvAt s.storage i = x) ↔ x ∈ headersSet headers := by
  obtain ⟨g1, g2⟩ := h.group gid
  have hperm := ho.hg (s.group gid)
  obtain ⟨hs, done, e1, hsn, hdn, hd, hsub, hrest, hkeep, hgone⟩ := hgLoop_spec h.storage (o.hg (s.group gid)) (headersSet headers) []
    (fun i hi => g2 i (hperm.subset hi)) (by simpa using hperm.nodup_iff.2 g1) (nodup_headersSet headers)
  have hd : ∀ i ∈ done, i ∈ s.group gid := by
    intro i hi
    rcases hd i hi with hi | hi
    · exact hperm.subset hi
    · simp at hi
  have hpo := ho.hset hs
  obtain ⟨is, hm⟩ := makeAll_spec (cfg := cfg) h.storage (o.hset hs) (hpo.nodup_iff.2 hsn)
  have hmem : ∀ x, x ∈ o.hset hs ↔ x ∈ hs := fun x => hpo.mem_iff
  generalize hM : (o.hset hs).foldl (makeOne cfg s.storage) {} = m at hm
  have hfull : (done.foldl addSet m.stoggls).Nodup := nodup_addAll (List.nodup_append.1 hm.nodup).1
  have hfm : ∀ i, i ∈ done.foldl addSet m.stoggls ↔ i ∈ m.stoggls ∨ i ∈ done := fun i => mem_addAll
  have hpt := ho.toggl (done.foldl addSet m.stoggls)
  generalize hF : done.foldl addSet m.stoggls = full at hfull hfm hpt
  obtain ⟨ts, rs, f1, hrs, fp, _⟩ := figureOutRanges_spec .stoggl .strang (o.toggl full)
  obtain ⟨ts', rs', f2, hrs', fp', _⟩ := figureOutRanges_spec .etoggl .etrang is
  generalize hB : ([(.stoggl, ts.map (toggle .stoggl)), (.etoggl, ts'.map (toggle .etoggl)), (.sclone, m.sclone), (.eclone, m.eclone),
    (.skvsto, m.skvsto), (.ekvsto, []), (.etrang, rs'.map fun r => range .etrang r.1 r.2),
    (.strang, rs.map fun r => range .strang r.1 r.2)] : Groups) = base
  have hmake : makeInstructions cfg o s headers gid = .ok (o.instr base) := by
    have f1' : figureOutRanges (List.map (fun i => ({ opcode := .stoggl, index := some i } : Op)) (o.toggl full)) .strang =
      .ok (ts.map (toggle .stoggl), rs.map fun r => range .strang r.1 r.2) := f1
    simp only [makeInstructions, bind, Except.bind, e1, hM, hF, hm.etoggl, f2, f1', pure, Except.pure, hB]
  have hbase : (o.instr base).Perm base := ho.instr base
  have hops : ((o.instr base).flatMap (·.2)).Perm (base.flatMap (·.2)) := hbase.flatMap_right _
  have hbops : base.flatMap (·.2) = ts.map (toggle .stoggl) ++ (ts'.map (toggle .etoggl) ++ (m.sclone ++ (m.eclone ++ (m.skvsto ++
      ((rs'.map fun r => range .etrang r.1 r.2) ++ (rs.map fun r => range .strang r.1 r.2)))))) := by
    rw [← hB]
    simp [List.flatMap_cons]
  have hsc : ∀ op ∈ m.sclone, op.opcode = .sclone := by
    intro op hop
    obtain ⟨_, _, _, _, _, rfl⟩ := hm.sclone op hop
    rfl
  have hec : ∀ op ∈ m.eclone, op.opcode = .eclone := by
    intro op hop
    obtain ⟨_, _, _, _, _, rfl⟩ := hm.eclone op hop
    rfl
  have hkv : ∀ op ∈ m.skvsto, op.opcode = .skvsto := by
    intro op hop
    obtain ⟨_, _, rfl⟩ := hm.skvsto op hop
    rfl
  have hS : ((o.instr base).flatMap (·.2)).flatMap opStog |>.Perm full := by
    refine (hops.flatMap_right opStog).trans ?_
    have : (base.flatMap (·.2)).flatMap opStog = ts ++ rs.flatMap fun r => interval r.1 r.2 := by
      rw [hbops]
      simp only [List.flatMap_append]
      rw [flatMap_toggles .stoggl opStog (fun _ => rfl), flatMap_ranges .strang opStog (fun _ _ => rfl),
        flatMap_empty opStog (ts'.map (toggle .etoggl)), flatMap_empty opStog m.sclone, flatMap_empty opStog m.eclone,
        flatMap_empty opStog m.skvsto, flatMap_empty opStog (rs'.map fun r => range .etrang r.1 r.2)]
      · simp
      · intro x hx
        obtain ⟨_, _, rfl⟩ := List.mem_map.1 hx
        rfl
      · intro x hx
        simp only [opStog, hkv x hx]
      · intro x hx
        simp only [opStog, hec x hx]
      · intro x hx
        simp only [opStog, hsc x hx]
      · intro x hx
        obtain ⟨_, _, rfl⟩ := List.mem_map.1 hx
        rfl
    rw [this]
    exact fp.trans hpt
  have hT : ((o.instr base).flatMap (·.2)).flatMap opEtog |>.Perm is := by
    refine (hops.flatMap_right opEtog).trans ?_
    have : (base.flatMap (·.2)).flatMap opEtog = ts' ++ rs'.flatMap fun r => interval r.1 r.2 := by
      rw [hbops]
      simp only [List.flatMap_append]
      rw [flatMap_toggles .etoggl opEtog (fun _ => rfl), flatMap_ranges .etrang opEtog (fun _ _ => rfl),
        flatMap_empty opEtog (ts.map (toggle .stoggl)), flatMap_empty opEtog m.sclone, flatMap_empty opEtog m.eclone,
        flatMap_empty opEtog m.skvsto, flatMap_empty opEtog (rs.map fun r => range .strang r.1 r.2)]
      · simp
      · intro x hx
        obtain ⟨_, _, rfl⟩ := List.mem_map.1 hx
        rfl
      · intro x hx
        simp only [opEtog, hkv x hx]
      · intro x hx
        simp only [opEtog, hec x hx]
      · intro x hx
        simp only [opEtog, hsc x hx]
      · intro x hx
        obtain ⟨_, _, rfl⟩ := List.mem_map.1 hx
        rfl
    rw [this]
    exact fp'
  have hlive : ∀ i, i ∈ full ∨ i ∈ is → Live s.storage i := by
    rintro i (hi | hi)
    · rcases (hfm i).1 hi with hi | hi
      · exact (hm.live i (List.mem_append_left _ hi)).1
      · exact g2 i (hd i hi)
    · exact (hm.live i (List.mem_append_right _ hi)).1
  have hin : ∀ (a b i : Int), a ≤ i → i ≤ b → i ∈ interval a b := by
    intro a b i h1 h2
    simp only [interval, List.mem_map, List.mem_range]
    exact ⟨(i - a).toNat, by omega, by omega⟩
  have hgood : ∀ g ∈ base, ∀ op ∈ g.2, op.opcode = g.1 ∧ Shaped op ∧ IdxLive s.storage op ∧ BytesOk op := by
    intro g hg op hop
    have htog : ∀ (oc : Opcode), shapeOf oc = [.index] → ∀ i, Live s.storage i → (toggle oc i).opcode = oc ∧
        Shaped (toggle oc i) ∧ IdxLive s.storage (toggle oc i) ∧ BytesOk (toggle oc i) := by
      intro oc hoc i hi
      refine ⟨rfl, fun f => ?_, ⟨fun j hj => ?_, fun j hj => ?_⟩, fun t ht => ?_, fun t ht => ?_⟩
      · simp only [toggle, hoc]
        cases f <;> rfl
      · simp only [toggle, Option.some.injEq] at hj
        exact hj ▸ hi
      · simp [toggle] at hj
      · simp [toggle] at ht
      · simp [toggle] at ht
    have hran : ∀ (oc : Opcode), shapeOf oc = [.indexStart, .index] → ∀ i j, Live s.storage i → Live s.storage j → (range oc i j).opcode = oc ∧
        Shaped (range oc i j) ∧ IdxLive s.storage (range oc i j) ∧ BytesOk (range oc i j) := by
      intro oc hoc i j hi hj
      refine ⟨rfl, fun f => ?_, ⟨fun j hj => ?_, fun j hj => ?_⟩, fun t ht => ?_, fun t ht => ?_⟩
      · simp only [range, hoc]
        cases f <;> rfl
      · simp only [range, Option.some.injEq] at hj
        subst hj
        assumption
      · simp only [range, Option.some.injEq] at hj
        subst hj
        assumption
      · simp [range] at ht
      · simp [range] at ht
    have hclone : ∀ (oc : Opcode), shapeOf oc = [.index, .val] → ∀ op, CloneOf s.storage oc (o.hset hs) op → op.opcode = oc ∧
        Shaped op ∧ IdxLive s.storage op ∧ BytesOk op := by
      rintro oc hoc op ⟨k, x, hx, hl, _, rfl⟩
      refine ⟨rfl, fun f => ?_, ⟨fun j hj => ?_, fun j hj => ?_⟩, fun t ht => ?_, fun t ht => ?_⟩
      · simp only [hoc]
        cases f <;> rfl
      · simp only [Option.some.injEq] at hj
        exact hj ▸ hl
      · simp at hj
      · simp at ht
      · simp only [Option.some.injEq] at ht
        exact ht ▸ (hb x (hsub x ((hmem x).1 hx))).2
    rw [← hB] at hg
    simp only [List.mem_cons, List.not_mem_nil, or_false] at hg
    have hend : ∀ {ts : List Int} {rs : List (Int × Int)} {l : List Int}, (ts ++ rs.flatMap fun r => interval r.1 r.2).Perm l →
        (∀ r ∈ rs, r.1 < r.2) → ∀ r ∈ rs, r.1 ∈ l ∧ r.2 ∈ l := by
      intro ts rs l hp hlt r hr
      have h1 : ∀ i, i ∈ interval r.1 r.2 → i ∈ l := fun i hi =>
        hp.subset (List.mem_append_right _ (List.mem_flatMap.2 ⟨r, hr, hi⟩))
      have := hlt r hr
      exact ⟨h1 _ (hin _ _ _ (by omega) (by omega)), h1 _ (hin _ _ _ (by omega) (by omega))⟩
    rcases hg with rfl | rfl | rfl | rfl | rfl | rfl | rfl | rfl
    · obtain ⟨i, hi, rfl⟩ := List.mem_map.1 hop
      exact htog .stoggl rfl i (hlive i (.inl ((fp.trans hpt).subset (List.mem_append_left _ hi))))
    · obtain ⟨i, hi, rfl⟩ := List.mem_map.1 hop
      exact htog .etoggl rfl i (hlive i (.inr (fp'.subset (List.mem_append_left _ hi))))
    · exact hclone .sclone rfl op (hm.sclone op hop)
    · exact hclone .eclone rfl op (hm.eclone op hop)
    · obtain ⟨x, hx, rfl⟩ := hm.skvsto op hop
      have hbx := hb x (hsub x ((hmem x).1 hx))
      refine ⟨rfl, fun f => ?_, ⟨fun j hj => ?_, fun j hj => ?_⟩, fun t ht => ?_, fun t ht => ?_⟩
      · cases f <;> rfl
      · simp at hj
      · simp at hj
      · simp only [Option.some.injEq] at ht
        exact ht ▸ hbx.1
      · simp only [Option.some.injEq] at ht
        exact ht ▸ hbx.2
    · simp at hop
    · obtain ⟨r, hr, rfl⟩ := List.mem_map.1 hop
      obtain ⟨r1, r2⟩ := hend fp' hrs' r hr
      exact hran .etrang rfl _ _ (hlive _ (.inr r1)) (hlive _ (.inr r2))
    · obtain ⟨r, hr, rfl⟩ := List.mem_map.1 hop
      obtain ⟨r1, r2⟩ := hend (fp.trans hpt) hrs r hr
      exact hran .strang rfl _ _ (hlive _ (.inl r1)) (hlive _ (.inl r2))
  have hgood' : ∀ g ∈ o.instr base, ∀ op ∈ g.2, op.opcode = g.1 ∧ Shaped op ∧ IdxLive s.storage op ∧ BytesOk op :=
    fun g hg => hgood g (hbase.subset hg)
  have hSn := hS.nodup_iff.2 hfull
  have hTn := hT.nodup_iff.2 (List.nodup_append.1 hm.nodup).2.1
  have hrun : Runnable s.storage ((o.instr base).flatMap (·.2)) := by
    refine ⟨?_, hSn, fun i hi => hlive i (.inl (hS.subset hi)), hTn, fun i hi => hlive i (.inr (hT.subset hi))⟩
    intro op hop
    obtain ⟨g, hg, hop⟩ := List.mem_flatMap.1 hop
    obtain ⟨_, h2, h3, _⟩ := hgood' g hg op hop
    refine ⟨h2, fun _ i hi => lookup_live h.storage (h3.1 i hi), fun i j h1 h4 => ?_⟩
    have r1 := live_range h.storage (h3.1 i h1)
    have r2 := live_range h.storage (h3.2 j h4)
    exact if_pos (by omega)
  refine ⟨o.instr base, hmake, hgood', hrun, ?_⟩
  have hrefs : ∀ i, i ∈ refsOf (s.group gid) ((o.instr base).flatMap (·.2)) ↔
      i ∈ m.stoggls ++ is ∨ (i ∈ s.group gid ∧ i ∉ done) := by
    intro i
    have hhn : (symDiff (s.group gid) (((o.instr base).flatMap (·.2)).flatMap opStog)).Nodup := nodup_symDiff g1
    unfold refsOf
    rw [mem_symDiff hhn, mem_symDiff hSn, hT.mem_iff, hS.mem_iff, hfm, List.mem_append]
    have k1 : i ∈ m.stoggls ++ is → i ∉ s.group gid := by
      intro hi hg
      exact hgone i (hperm.symm.subset hg) ((hmem _).1 (hm.live i hi).2)
    have k2 : i ∈ m.stoggls → i ∉ is := by
      intro h1 h2
      exact (List.nodup_append.1 hm.nodup).2.2 i h1 i h2 rfl
    rw [List.mem_append] at k1
    exact refs_logic k1 k2 (hd i)
  have hpairs : ∀ x, x ∈ ((o.instr base).flatMap (·.2)).flatMap (opPairs s.storage) ↔
      ∃ op, (op ∈ m.sclone ∨ op ∈ m.eclone ∨ op ∈ m.skvsto) ∧ x ∈ opPairs s.storage op := by
    intro x
    rw [(hops.flatMap_right (opPairs s.storage)).mem_iff, hbops, List.mem_flatMap]
    simp only [List.mem_append]
    constructor
    · rintro ⟨op, (hop | hop | hop | hop | hop | hop | hop), hx⟩
      · obtain ⟨_, _, rfl⟩ := List.mem_map.1 hop
        simp [opPairs, toggle] at hx
      · obtain ⟨_, _, rfl⟩ := List.mem_map.1 hop
        simp [opPairs, toggle] at hx
      · exact ⟨op, .inl hop, hx⟩
      · exact ⟨op, .inr (.inl hop), hx⟩
      · exact ⟨op, .inr (.inr hop), hx⟩
      · obtain ⟨_, _, rfl⟩ := List.mem_map.1 hop
        simp [opPairs, range] at hx
      · obtain ⟨_, _, rfl⟩ := List.mem_map.1 hop
        simp [opPairs, range] at hx
    · rintro ⟨op, (hop | hop | hop), hx⟩
      · exact ⟨op, .inr (.inr (.inl hop)), hx⟩
      · exact ⟨op, .inr (.inr (.inr (.inl hop))), hx⟩
      · exact ⟨op, .inr (.inr (.inr (.inr (.inl hop)))), hx⟩
  intro x
  rw [hpairs]
  constructor
  · rintro (⟨op, hop, hx⟩ | ⟨i, hi, rfl⟩)
    · rcases hop with hop | hop | hop
      · obtain ⟨k, y, hy, _, hk, rfl⟩ := hm.sclone op hop
        simp only [opPairs, Option.getD_some, List.mem_singleton, hk] at hx
        exact hsub _ ((hmem _).1 (hx ▸ hy))
      · obtain ⟨k, y, hy, _, hk, rfl⟩ := hm.eclone op hop
        simp only [opPairs, Option.getD_some, List.mem_singleton, hk] at hx
        exact hsub _ ((hmem _).1 (hx ▸ hy))
      · obtain ⟨y, hy, rfl⟩ := hm.skvsto op hop
        simp only [opPairs, Option.getD_some, List.mem_singleton] at hx
        exact hsub _ ((hmem _).1 (hx ▸ hy))
    · rcases (hrefs i).1 hi with hi | ⟨h1, h2⟩
      · exact hsub _ ((hmem _).1 (hm.live i hi).2)
      · exact hkeep i (hperm.symm.subset h1) h2
  · intro hx
    by_cases hx' : x ∈ hs
    · rcases hm.cover x ((hmem x).2 hx') with ⟨i, hi, e⟩ | ⟨op, hop, e⟩
      · exact .inr ⟨i, (hrefs i).2 (.inl hi), e⟩
      · exact .inl ⟨op, hop, by rw [e]; simp⟩
    · obtain ⟨i, hi, hnd, e⟩ := hrest x hx hx'
      exact .inr ⟨i, (hrefs i).2 (.inr ⟨hperm.subset hi, hnd⟩), e⟩

end Verif.Delta2
