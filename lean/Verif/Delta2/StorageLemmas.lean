import Verif.Delta2.LruLemmas
/-
Invariants of Storage; histories of operations on LruStorage and Storage.
-/
namespace Verif.Delta2
open Verif

/-! ### Histories -/

/-- An operation on an LruStorage; `cells` stands for anything else that happens to the reference counts. -/
inductive LruOp where
  | reserve (kv : KV) (itemCount : Int)
  | store (kv : KV)
  | pop
  | cells (c : Counts)

/-- One operation; a MemoryError of Store leaves everything as it was. -/
def lruStep (s : Counts × Lru) : LruOp → Counts × Lru
  | .reserve kv n => ((reserve kv n s.1 s.2).counts, (reserve kv n s.1 s.2).lru)
  | .store kv => (s.1, match s.2.store s.1 kv with | .ok s' => s' | .error _ => s.2)
  | .pop => match popOne s.1 s.2 with | some (c, s', _) => (c, s') | none => s
  | .cells c => (c, s.2)

/-- A history. -/
def lruRun (s : Counts × Lru) (ops : List LruOp) : Counts × Lru := ops.foldl lruStep s

/-- An operation on a Storage. -/
inductive StorageOp where
  | insert (kv : KV)
  | cells (c : Counts)

/-- One operation. -/
def storageStep (st : Storage) : StorageOp → Py Storage
  | .insert kv => do
    let (st, _, _) ← insertVal st kv
    pure st
  | .cells c => .ok { st with counts := c }

/-- A history. -/
def storageRun : Storage → List StorageOp → Py Storage
  | st, [] => .ok st
  | st, op :: ops => do
    let st ← storageStep st op
    storageRun st ops

/-! ### LruStorage -/

/-- The limits are respected. -/
structure LimitsOk (s : Lru) : Prop where
  items : ∀ m, s.maxItems = some m → m ≠ 0 → (s.ring.length : Int) ≤ max m 0
  bytes : ∀ m, s.maxBytes = some m → s.byteSize ≤ max m 0

theorem LimitsOk.popped {s s' : Lru} {ps : List Entry} (h : LimitsOk s) (hp : Popped s s' ps) : LimitsOk s' := by
  have hl := congrArg List.length hp.ring
  simp only [List.length_append] at hl
  refine ⟨fun m hm h0 => ?_, fun m hm => ?_⟩
  · have := h.items m (by rw [← hp.same.items, hm]) h0
    omega
  · have := h.bytes m (by rw [← hp.same.bytes, hm])
    exact hp.bytes.trans this

theorem store_bounds {c : Counts} {s s' : Lru} {kv : KV} (e : s.store c kv = .ok s') :
    (∀ m, s.maxItems = some m → m ≠ 0 → (s.ring.length : Int) + 1 ≤ m) ∧
    (∀ m, s.maxBytes = some m → s.byteSize + kv.byteSize c ≤ m) := by
  simp only [Lru.store] at e
  split at e
  · cases e
  · rename_i h1
    split at e
    · cases e
    · rename_i h2
      refine ⟨fun m hm h0 => ?_, fun m hm => ?_⟩
      · simp only [tooManyItems, hm, decide_eq_true_eq, not_and, not_lt] at h2
        exact h2 h0
      · simp only [tooManyBytes, hm, decide_eq_true_eq] at h1
        omega

theorem store_same {c : Counts} {s s' : Lru} {kv : KV} (e : s.store c kv = .ok s') : SameLimits s s' := by
  rw [store_ok e]
  exact ⟨rfl, rfl, rfl, rfl⟩

theorem LimitsOk.store {c : Counts} {s s' : Lru} {kv : KV} (e : s.store c kv = .ok s') :
    LimitsOk s' := by
  obtain ⟨h1, h2⟩ := store_bounds e
  have hs := store_ok e
  have hsame := store_same e
  refine ⟨fun m hm h0 => ?_, fun m hm => ?_⟩
  · have := h1 m (by rw [← hsame.items, hm]) h0
    rw [hs]
    simp only [List.length_append, List.length_singleton]
    push_cast
    omega
  · have := h2 m (by rw [← hsame.bytes, hm])
    rw [hs]
    simp only
    omega

theorem RingOk.popped {s s' : Lru} {ps : List Entry} (h : RingOk s) (hp : Popped s s' ps) : RingOk s' :=
  h.drop ps.length (by rw [hp.ring]; simp) hp.same.seq hp.same.offset hp.num

/-- The numbers suffice for the items. -/
def NumbersOk (s : Lru) : Prop := ∀ m, s.maxSeq = some m → ∃ k, s.maxItems = some k ∧ k ≠ 0 ∧ k ≤ m - s.offset

theorem NumbersOk.room {c : Counts} {s s' : Lru} {kv : KV} (h : NumbersOk s) (e : s.store c kv = .ok s') : HasRoom s := by
  intro m hm
  obtain ⟨k, hk, h0, hle⟩ := h m hm
  have := (store_bounds e).1 k hk h0
  omega

theorem NumbersOk.same {s s' : Lru} (h : NumbersOk s) (hs : SameLimits s s') : NumbersOk s' := by
  intro m hm
  rw [hs.seq] at hm
  rw [hs.items, hs.offset]
  exact h m hm

theorem lruStep_spec (c : Counts) (s : Lru) (op : LruOp) :
    (∃ ps, Popped s (lruStep (c, s) op).2 ps) ∨
    ∃ kv s', op = .store kv ∧ s.store c kv = .ok s' ∧ (lruStep (c, s) op).2 = s' := by
  cases op with
  | reserve kv n => exact .inl ⟨_, (reserve_spec kv c s n).1⟩
  | store kv =>
    simp only [lruStep]
    cases he : s.store c kv with
    | ok s' => exact .inr ⟨kv, s', rfl, he, rfl⟩
    | error e => exact .inl ⟨[], .refl s⟩
  | pop =>
    simp only [lruStep]
    cases he : popOne c s with
    | none => exact .inl ⟨[], .refl s⟩
    | some r =>
      obtain ⟨c', s', e⟩ := r
      exact .inl ⟨[e], popOne_spec he⟩
  | cells c' => exact .inl ⟨[], .refl s⟩

theorem lruRun_ok (ops : List LruOp) : ∀ (c : Counts) (s : Lru), NumbersOk s → RingOk s → LimitsOk s →
    NumbersOk (lruRun (c, s) ops).2 ∧ RingOk (lruRun (c, s) ops).2 ∧ LimitsOk (lruRun (c, s) ops).2 ∧
      SameLimits s (lruRun (c, s) ops).2 := by
  induction ops with
  | nil => intro c s h1 h2 h3; exact ⟨h1, h2, h3, .refl s⟩
  | cons op ops ih =>
    intro c s h1 h2 h3
    have hstep : NumbersOk (lruStep (c, s) op).2 ∧ RingOk (lruStep (c, s) op).2 ∧ LimitsOk (lruStep (c, s) op).2 ∧
        SameLimits s (lruStep (c, s) op).2 := by
      rcases lruStep_spec c s op with ⟨ps, hp⟩ | ⟨kv, s', _, he, hs⟩
      · exact ⟨h1.same hp.same, h2.popped hp, h3.popped hp, hp.same⟩
      · rw [hs]
        exact ⟨h1.same (store_same he), h2.store (h1.room he) he, LimitsOk.store he, store_same he⟩
    obtain ⟨a, b, d, e⟩ := hstep
    have := ih (lruStep (c, s) op).1 (lruStep (c, s) op).2 a b d
    exact ⟨this.1, this.2.1, this.2.2.1, e.trans this.2.2.2⟩

/-- Without the condition that the numbers suffice. -/
theorem lruRun_limits (ops : List LruOp) : ∀ (c : Counts) (s : Lru), LimitsOk s →
    LimitsOk (lruRun (c, s) ops).2 ∧ SameLimits s (lruRun (c, s) ops).2 := by
  induction ops with
  | nil => intro c s h3; exact ⟨h3, .refl s⟩
  | cons op ops ih =>
    intro c s h3
    have hstep : LimitsOk (lruStep (c, s) op).2 ∧ SameLimits s (lruStep (c, s) op).2 := by
      rcases lruStep_spec c s op with ⟨ps, hp⟩ | ⟨kv, s', _, he, hs⟩
      · exact ⟨h3.popped hp, hp.same⟩
      · rw [hs]
        exact ⟨LimitsOk.store he, store_same he⟩
    obtain ⟨d, e⟩ := hstep
    have := ih (lruStep (c, s) op).1 (lruStep (c, s) op).2 d
    exact ⟨this.1, e.trans this.2⟩

/-! ### Storage -/

/-- The static entries are numbered from 0, the others above; there are at most as many as allowed. -/
structure StorageOk (st : Storage) (bytesLim itemsLim seqLim : Int) : Prop where
  static : st.static.ring.map (fun e => (e.kv.key, e.kv.val, e.seq)) =
    (defaultKvs.zipIdx).map fun x => (x.1.1, x.1.2, (x.2 : Int))
  staticRing : RingOk st.static
  ring : RingOk st.lru
  offset : st.lru.offset = 65
  maxSeq : st.lru.maxSeq = some seqLim
  maxItems : st.lru.maxItems = some itemsLim
  maxBytes : st.lru.maxBytes = some bytesLim
  entries : (st.lru.ring.length : Int) ≤ max itemsLim 0
  bytes : st.lru.byteSize ≤ max bytesLim 0

theorem StorageOk.len {st : Storage} {a b c : Int} (h : StorageOk st a b c) : st.static.ring.length = 65 := by
  have := congrArg List.length h.static
  rw [List.length_map, List.length_map, List.length_zipIdx] at this
  rw [this]
  rfl

/-- The first steps of the constructor. -/
theorem static_init : ∃ c s, storeAll defaultKvs [] {} = .ok (c, s) ∧ c = List.replicate 130 1 ∧
    (s.ring.map (fun e => (e.kv.key, e.kv.val, e.seq)) = (defaultKvs.zipIdx).map fun x => (x.1.1, x.1.2, (x.2 : Int))) ∧
    s.ring.map (fun e => (e.kv.kcell, e.kv.vcell)) = (List.range 65).map (fun i => (2 * i, 2 * i + 1)) ∧
    s.maxSeq = none ∧ s.offset = 0 ∧ s.seqNum = 65 ∧ s.maxItems = none ∧ s.maxBytes = none := by
  have h : (match storeAll defaultKvs [] {} with
    | .ok (c, s) => decide (c = List.replicate 130 1 ∧
        (s.ring.map (fun e => (e.kv.key, e.kv.val, e.seq)) = (defaultKvs.zipIdx).map fun x => (x.1.1, x.1.2, (x.2 : Int))) ∧
        s.ring.map (fun e => (e.kv.kcell, e.kv.vcell)) = (List.range 65).map (fun i => (2 * i, 2 * i + 1)) ∧
        s.maxSeq = none ∧ s.offset = 0 ∧ s.seqNum = 65 ∧ s.maxItems = none ∧ s.maxBytes = none)
    | .error _ => false) = true := by decide +kernel
  split at h
  · rename_i c s he
    exact ⟨c, s, he, of_decide_eq_true h⟩
  · cases h

theorem static_ring {s : Lru} (h : s.ring.map (fun e => (e.kv.key, e.kv.val, e.seq)) =
      (defaultKvs.zipIdx).map fun x => (x.1.1, x.1.2, (x.2 : Int)))
    (h1 : s.maxSeq = none) (h2 : s.offset = 0) (h3 : s.seqNum = 65) : RingOk s := by
  refine ⟨⟨0, fun p e he => ?_, ?_⟩, fun m hm => by rw [h1] at hm; cases hm⟩
  · have := congrArg (fun l => l[p]?) h
    simp only [List.getElem?_map, he, Option.map_some, List.getElem?_zipIdx] at this
    cases hd : defaultKvs[p]? with
    | none => rw [hd] at this; simp at this
    | some x =>
      rw [hd] at this
      simp only [Option.map_some, Option.some.injEq, Prod.mk.injEq, Nat.zero_add] at this
      rw [h1, h2, this.2.2]
      simp [num]
  · have hl := congrArg List.length h
    rw [List.length_map, List.length_map, List.length_zipIdx] at hl
    rw [h3, h1, h2, hl]
    rfl

theorem storage_init (maxBytes maxEntries maxIndex : Int) : ∃ st, Storage.init maxBytes maxEntries maxIndex = .ok st ∧
    StorageOk st maxBytes maxEntries maxIndex ∧ st.lru.ring = [] ∧ st.lru.byteSize = 0 ∧ st.counts = List.replicate 130 1 ∧
    st.static.ring.map (fun e => (e.kv.kcell, e.kv.vcell)) = (List.range 65).map (fun i => (2 * i, 2 * i + 1)) := by
  obtain ⟨c, s, e, hc, hs, hcell, h1, h2, h3, h4, h5⟩ := static_init
  have hl := congrArg List.length hs
  rw [List.length_map, List.length_map, List.length_zipIdx] at hl
  have hi : Storage.init maxBytes maxEntries maxIndex = .ok { counts := c, static := s, lru := { maxBytes := some maxBytes, maxItems := some maxEntries, maxSeq := some maxIndex, offset := s.ring.length } } := by
    simp only [Storage.init, bind, Except.bind, e, pure, Except.pure]
  refine ⟨_, hi, ⟨hs, static_ring hs h1 h2 h3, RingOk.init rfl rfl, ?_, rfl, rfl, rfl, by simp, by simp⟩, rfl, rfl, hc, hcell⟩
  rw [hl]
  rfl

/-- InsertVal never raises; it removes entries on the left and adds one on the right, or fails. -/
theorem insertVal_spec {st : Storage} {a b m : Int} (h : StorageOk st a b m) (hb : b ≤ m - 65) (kv : KV) :
    ∃ st' ps r, insertVal st kv = .ok (st', ps, r) ∧ StorageOk st' a b m ∧ st'.static = st.static ∧
      ∃ keep, st.lru.ring = ps ++ keep ∧
        ((r = none ∧ st'.lru.ring = keep) ∨
          (r = some st.lru.seqNum ∧ st'.lru.ring = keep ++ [{ kv := kv, seq := st.lru.seqNum }])) := by
  obtain ⟨hp, hok⟩ := reserve_spec kv st.counts st.lru 1
  have hst := store_after_reserve kv st.counts st.lru
  simp only [insertVal]
  generalize reserve kv 1 st.counts st.lru = r at hp hok hst ⊢
  have hl := congrArg List.length hp.ring
  simp only [List.length_append] at hl
  have h1 : StorageOk { counts := r.counts, static := st.static, lru := r.lru } a b m := {
    static := h.static, staticRing := h.staticRing, ring := h.ring.popped hp,
    offset := hp.same.offset.trans h.offset, maxSeq := hp.same.seq.trans h.maxSeq,
    maxItems := hp.same.items.trans h.maxItems, maxBytes := hp.same.bytes.trans h.maxBytes,
    entries := by have := h.entries; simp only; omega
    bytes := hp.bytes.trans h.bytes }
  by_cases hrok : r.ok = true
  · rw [if_pos hrok]
    obtain ⟨s', es⟩ := hst hrok
    obtain ⟨hi, _, hi1, _⟩ := hok hrok
    have hle := hi1 b h.maxItems
    have hs' := store_ok es
    have hring : s'.ring = r.lru.ring ++ [{ kv := kv, seq := r.lru.seqNum }] := by rw [hs']
    have hlast : pyIndex s'.ring (-1) = .ok { kv := kv, seq := r.lru.seqNum } := by
      have := pyIndex_neg (l := s'.ring) (p := 0) (x := { kv := kv, seq := r.lru.seqNum }) (by rw [hring]; simp)
        (by rw [hring]; simp)
      simpa using this
    refine ⟨{ counts := r.counts, static := st.static, lru := s' }, r.popped, some r.lru.seqNum, ?_, ?_, rfl, r.lru.ring,
      hp.ring, ?_⟩
    · simp only [bind, Except.bind, es, hlast, pure, Except.pure]
    · have hsame := store_same es
      refine ⟨h.static, h.staticRing, ?_, hsame.offset.trans h1.offset, hsame.seq.trans h1.maxSeq,
        hsame.items.trans h1.maxItems, hsame.bytes.trans h1.maxBytes, ?_, ?_⟩
      · refine h1.ring.store (fun m' hm' => ?_) es
        have e1 : r.lru.maxSeq = some m := h1.maxSeq
        have e2 : r.lru.offset = 65 := h1.offset
        change r.lru.maxSeq = some m' at hm'
        rw [e1] at hm'
        cases hm'
        change r.lru.ring.length + 1 ≤ (m - (r.lru.offset : Int)).toNat
        rw [e2]
        omega
      · have := (store_bounds es).1 b h1.maxItems (fun h0 => hi (by rw [h.maxItems, h0]))
        change (s'.ring.length : Int) ≤ _
        rw [hring, List.length_append, List.length_singleton]
        push_cast
        omega
      · have := (store_bounds es).2 a h1.maxBytes
        change s'.byteSize ≤ _
        rw [hs']
        simp only
        omega
    · right
      rw [hp.num]
      refine ⟨rfl, ?_⟩
      rw [← hp.num]
      exact hring
  · rw [if_neg hrok]
    exact ⟨_, _, none, rfl, h1, rfl, r.lru.ring, hp.ring, .inl ⟨rfl, rfl⟩⟩

theorem storageRun_ok {a b m : Int} (hb : b ≤ m - 65) (ops : List StorageOp) : ∀ st, StorageOk st a b m →
    ∃ st', storageRun st ops = .ok st' ∧ StorageOk st' a b m := by
  induction ops with
  | nil => intro st h; exact ⟨st, rfl, h⟩
  | cons op ops ih =>
    intro st h
    cases op with
    | insert kv =>
      obtain ⟨st1, ps, r, e, h1, _⟩ := insertVal_spec h hb kv
      obtain ⟨st2, e2, h2⟩ := ih st1 h1
      exact ⟨st2, by simp only [storageRun, storageStep, bind, Except.bind, e, pure, Except.pure, e2], h2⟩
    | cells c =>
      have h1 : StorageOk { st with counts := c } a b m :=
        ⟨h.static, h.staticRing, h.ring, h.offset, h.maxSeq, h.maxItems, h.maxBytes, h.entries, h.bytes⟩
      obtain ⟨st2, e2, h2⟩ := ih _ h1
      exact ⟨st2, by simp only [storageRun, storageStep, bind, Except.bind, e2], h2⟩

/-- The index belongs to an entry. -/
def Live (st : Storage) (i : Int) : Prop := (0 ≤ i ∧ i < 65) ∨ ∃ e ∈ st.lru.ring, e.seq = i

theorem live_range {st : Storage} {a b m : Int} (h : StorageOk st a b m) {i : Int} (hl : Live st i) :
    0 ≤ i ∧ (i < 65 ∨ i < m) := by
  rcases hl with hl | ⟨e, he, rfl⟩
  · omega
  · have := h.ring.range he
    rw [h.offset] at this
    have h2 := this.2 m h.maxSeq
    omega

/-- To distances and back. -/
theorem toLru_spec {st : Storage} {a b m : Int} (h : StorageOk st a b m) {i : Int} (hl : Live st i) :
    ∃ j, hgIdxToLruIdx st i = .ok j ∧ 0 ≤ j ∧ j < st.lru.ring.length + 65 ∧ lruIdxToHgIdx st j = .ok i := by
  have hlen := h.len
  rcases hl with hl | ⟨e, he, rfl⟩
  · refine ⟨st.lru.ring.length + 65 - 1 - i, ?_, by omega, by omega, ?_⟩
    · simp only [hgIdxToLruIdx, hlen]
      rw [if_neg (by omega)]
      rfl
    · simp only [lruIdxToHgIdx, hlen]
      rw [if_neg (by omega)]
      congr 1
      push_cast
      omega
  · have hr := h.ring.range he
    rw [h.offset] at hr
    obtain ⟨p, hp⟩ := List.mem_iff_getElem?.1 he
    obtain ⟨hlt, _⟩ := List.getElem?_eq_some_iff.1 hp
    refine ⟨((st.lru.ring.length - 1 - p : Nat) : Int), ?_, by omega, by omega, ?_⟩
    · simp only [hgIdxToLruIdx, hlen]
      rw [if_pos (by omega)]
      simp only [bind, Except.bind, seqNumToIdx_spec h.ring hp, pure, Except.pure]
      congr 1
      push_cast
      omega
    · simp only [lruIdxToHgIdx]
      rw [if_pos (by omega)]
      have hidx : st.lru.ring.length - 1 - (st.lru.ring.length - 1 - p) = p := by omega
      have := pyIndex_neg (l := st.lru.ring) (p := st.lru.ring.length - 1 - p) (x := e) (by rw [hidx]; exact hp) (by omega)
      simp only [bind, Except.bind, this, pure, Except.pure]

/-- From distances and back. -/
theorem toHg_spec {st : Storage} {a b m : Int} (h : StorageOk st a b m) {j : Int} (h0 : 0 ≤ j)
    (hj : j < st.lru.ring.length + 65) : ∃ i, lruIdxToHgIdx st j = .ok i ∧ Live st i ∧ hgIdxToLruIdx st i = .ok j := by
  have hlen := h.len
  by_cases hc : j < st.lru.ring.length
  · obtain ⟨p, rfl⟩ : ∃ p : Nat, j = p := ⟨j.toNat, by omega⟩
    have hlt : st.lru.ring.length - 1 - p < st.lru.ring.length := by omega
    have he := List.getElem?_eq_getElem hlt
    have h1 := pyIndex_neg he (by omega)
    have hr := h.ring.range (List.getElem_mem hlt)
    rw [h.offset] at hr
    refine ⟨(st.lru.ring[st.lru.ring.length - 1 - p]).seq, ?_, .inr ⟨_, List.getElem_mem hlt, rfl⟩, ?_⟩
    · simp only [lruIdxToHgIdx]
      rw [if_pos hc]
      simp only [bind, Except.bind, h1, pure, Except.pure]
    · simp only [hgIdxToLruIdx, hlen]
      rw [if_pos (by omega)]
      simp only [bind, Except.bind, seqNumToIdx_spec h.ring he, pure, Except.pure]
      congr 1
      push_cast
      omega
  · refine ⟨65 - 1 - (j - st.lru.ring.length), ?_, .inl (by omega), ?_⟩
    · simp only [lruIdxToHgIdx, hlen]
      rw [if_neg hc]
      rfl
    · simp only [hgIdxToLruIdx, hlen]
      rw [if_neg (by omega)]
      congr 1
      push_cast
      omega

end Verif.Delta2
