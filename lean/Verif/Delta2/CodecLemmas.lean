import Verif.Delta2.CodecSets
import Verif.Delta2.StorageLemmas
import Verif.Delta2.Spec
import Verif.Huff.TreeLemmas
/-
Executing operations: what DecompressorExecuteOps does to the storage and to the headers.
-/
namespace Verif.Delta2
open Verif

/-! ### Looking up -/

theorem lookup_ring {st : Storage} {a b m : Int} (h : StorageOk st a b m) {e : Entry} (he : e ∈ st.lru.ring) :
    lookupFromIdx st e.seq = .ok e := by
  have := (h.ring.range he).1
  rw [h.offset] at this
  simp only [lookupFromIdx, h.len]
  rw [if_neg (by push_cast at this ⊢; omega)]
  exact (lookup_iff h.ring _ _).2 ⟨he, rfl⟩

theorem static_seq {st : Storage} {a b m : Int} (h : StorageOk st a b m) {e : Entry} (he : e ∈ st.static.ring) :
    0 ≤ e.seq ∧ e.seq < 65 := by
  have : (e.kv.key, e.kv.val, e.seq) ∈ st.static.ring.map (fun e => (e.kv.key, e.kv.val, e.seq)) := List.mem_map.2 ⟨e, he, rfl⟩
  rw [h.static, List.mem_map] at this
  obtain ⟨⟨x, n⟩, hx, hq⟩ := this
  have hn := List.snd_lt_of_mem_zipIdx hx
  have hl : defaultKvs.length = 65 := rfl
  simp only [Prod.mk.injEq] at hq
  rw [hl] at hn
  simp only at hn
  omega

theorem lookup_static {st : Storage} {a b m : Int} (h : StorageOk st a b m) {e : Entry} (he : e ∈ st.static.ring) :
    lookupFromIdx st e.seq = .ok e := by
  have := static_seq h he
  simp only [lookupFromIdx, h.len]
  rw [if_pos (by push_cast; omega)]
  exact (lookup_iff h.staticRing _ _).2 ⟨he, rfl⟩

theorem lookup_live {st : Storage} {a b m : Int} (h : StorageOk st a b m) {i : Int} (hl : Live st i) :
    ∃ e, lookupFromIdx st i = .ok e := by
  rcases hl with ⟨h0, h1⟩ | ⟨e, he, rfl⟩
  · obtain ⟨n, rfl⟩ : ∃ n : Nat, i = n := ⟨i.toNat, by omega⟩
    have hn : n < defaultKvs.length := by
      have : defaultKvs.length = 65 := rfl
      omega
    have : ((defaultKvs[n]).1, (defaultKvs[n]).2, (n : Int)) ∈ st.static.ring.map (fun e => (e.kv.key, e.kv.val, e.seq)) := by
      rw [h.static, List.mem_map]
      refine ⟨(defaultKvs[n], n), ?_, rfl⟩
      rw [List.mem_zipIdx_iff_getElem?]
      exact List.getElem?_eq_getElem hn
    rw [List.mem_map] at this
    obtain ⟨e, he, hq⟩ := this
    simp only [Prod.mk.injEq] at hq
    exact ⟨e, by rw [← hq.2.2]; exact lookup_static h he⟩
  · exact ⟨e, lookup_ring h he⟩

/-- The pair at an index. -/
def kvAt (st : Storage) (i : Int) : Hdr :=
  match lookupFromIdx st i with
  | .ok e => (e.kv.key, e.kv.val)
  | .error _ => ([], [])

theorem kvAt_ok {st : Storage} {i : Int} {e : Entry} (h : lookupFromIdx st i = .ok e) : kvAt st i = (e.kv.key, e.kv.val) := by
  simp only [kvAt, h]

theorem findVal_spec (key val : Str) (ke : Entry) (l : List Entry) :
    (∃ v, findVal key val ke l = (some v, some v) ∧ ∃ e ∈ l, e.seq = v ∧ e.kv.key = key ∧ e.kv.val = val) ∨
      findVal key val ke l = (some ke.seq, none) := by
  induction l with
  | nil => exact .inr rfl
  | cons e es ih =>
    by_cases h : e.kv.key = key ∧ e.kv.val = val
    · exact .inl ⟨e.seq, by rw [findVal, if_pos h], e, by simp, rfl, h⟩
    · rw [findVal, if_neg h]
      rcases ih with ⟨v, h1, e', he', h2⟩ | h1
      · exact .inl ⟨v, h1, e', by simp [he'], h2⟩
      · exact .inr h1

theorem findKeyVal_spec (key val : Str) (l : List Entry) :
    (∃ v, findKeyVal key val l = (some v, some v) ∧ ∃ e ∈ l, e.seq = v ∧ e.kv.key = key ∧ e.kv.val = val) ∨
    (∃ k, findKeyVal key val l = (some k, none) ∧ ∃ e ∈ l, e.seq = k ∧ e.kv.key = key) ∨
      findKeyVal key val l = (none, none) := by
  induction l with
  | nil => exact .inr (.inr rfl)
  | cons e es ih =>
    by_cases hk : e.kv.key = key
    · rw [findKeyVal, if_pos hk]
      by_cases hv : e.kv.val = val
      · rw [if_pos hv]
        exact .inl ⟨e.seq, rfl, e, by simp, rfl, hk, hv⟩
      · rw [if_neg hv]
        rcases findVal_spec key val e es with ⟨v, h1, e', he', h2⟩ | h1
        · exact .inl ⟨v, h1, e', by simp [he'], h2⟩
        · exact .inr (.inl ⟨e.seq, h1, e, by simp, rfl, hk⟩)
    · rw [findKeyVal, if_neg hk]
      rcases ih with ⟨v, h1, e', he', h2⟩ | ⟨k, h1, e', he', h2⟩ | h1
      · exact .inl ⟨v, h1, e', by simp [he'], h2⟩
      · exact .inr (.inl ⟨k, h1, e', by simp [he'], h2⟩)
      · exact .inr (.inr h1)

/-- What FindEntryIdx finds. -/
theorem findEntryIdx_spec {st : Storage} {a b m : Int} (h : StorageOk st a b m) (key val : Str) :
    (∃ k v, findEntryIdx st key val = (k, some v) ∧ Live st v ∧ kvAt st v = (key, val)) ∨
    (∃ k, findEntryIdx st key val = (some k, none) ∧ Live st k ∧ (kvAt st k).1 = key) ∨
      findEntryIdx st key val = (none, none) := by
  have hs := findKeyVal_spec key val st.static.ring.reverse
  have hstat : ∀ e ∈ st.static.ring.reverse, Live st e.seq ∧ kvAt st e.seq = (e.kv.key, e.kv.val) := by
    intro e he
    rw [List.mem_reverse] at he
    exact ⟨.inl (static_seq h he), kvAt_ok (lookup_static h he)⟩
  have hdyn : ∀ e ∈ st.lru.ring.reverse, Live st e.seq ∧ kvAt st e.seq = (e.kv.key, e.kv.val) := by
    intro e he
    rw [List.mem_reverse] at he
    exact ⟨.inr ⟨e, he, rfl⟩, kvAt_ok (lookup_ring h he)⟩
  have hstatic : (∃ k v, findKeyValEntries st.static key val = (k, some v) ∧ Live st v ∧ kvAt st v = (key, val)) ∨
      (∃ k, findKeyValEntries st.static key val = (some k, none) ∧ Live st k ∧ (kvAt st k).1 = key) ∨
      findKeyValEntries st.static key val = (none, none) := by
    rcases hs with ⟨v, h1, e, he, h2, h3, h4⟩ | ⟨k, h1, e, he, h2, h3⟩ | h1
    · obtain ⟨l1, l2⟩ := hstat e he
      subst h2 h3 h4
      exact .inl ⟨_, _, h1, l1, l2⟩
    · obtain ⟨l1, l2⟩ := hstat e he
      subst h2 h3
      exact .inr (.inl ⟨_, h1, l1, by rw [l2]⟩)
    · exact .inr (.inr h1)
  unfold findEntryIdx
  rcases findKeyVal_spec key val st.lru.ring.reverse with ⟨v, h1, e, he, h2, h3, h4⟩ | ⟨k, h1, e, he, h2, h3⟩ | h1
  · obtain ⟨l1, l2⟩ := hdyn e he
    subst h2 h3 h4
    refine .inl ⟨some e.seq, e.seq, ?_, l1, l2⟩
    simp only [findKeyValEntries, h1]
  · obtain ⟨l1, l2⟩ := hdyn e he
    subst h2 h3
    simp only [findKeyValEntries, h1] at hstatic ⊢
    by_cases h0 : e.seq ≠ 0
    · rw [if_pos h0]
      rcases hstatic with ⟨k', v, g1, g2, g3⟩ | ⟨k', g1, g2, g3⟩ | g1
      · exact .inl ⟨some e.seq, v, by rw [g1], g2, g3⟩
      · exact .inr (.inl ⟨e.seq, by rw [g1], l1, by rw [l2]⟩)
      · exact .inr (.inl ⟨e.seq, by rw [g1], l1, by rw [l2]⟩)
    · rw [if_neg h0]
      exact hstatic
  · simp only [findKeyValEntries, h1] at hstatic ⊢
    exact hstatic

/-! ### The loop over the operations -/

/-- Opcodes that refer to an entry for its key. -/
def Opcode.isClone : Opcode → Bool
  | .sclone | .eclone => true
  | _ => false

/-- The indices toggled in the group by an operation. -/
def opStog (op : Op) : List Int :=
  match op.opcode with
  | .stoggl => op.index.toList
  | .strang => xrange (op.indexStart.getD 0) (op.index.getD 0 + 1)
  | _ => []

/-- The indices toggled for this message by an operation. -/
def opEtog (op : Op) : List Int :=
  match op.opcode with
  | .etoggl => op.index.toList
  | .etrang => xrange (op.indexStart.getD 0) (op.index.getD 0 + 1)
  | _ => []

/-- The header given by an operation. -/
def opPairs (st : Storage) (op : Op) : List Hdr :=
  match op.opcode with
  | .sclone | .eclone => [((kvAt st (op.index.getD 0)).1, op.val.getD [])]
  | .skvsto | .ekvsto => [(op.key.getD [], op.val.getD [])]
  | _ => []

/-- An operation that can be executed: it has its fields, and a clone refers to an entry. -/
structure OpRuns (st : Storage) (op : Op) : Prop where
  shaped : Shaped op
  live : op.opcode.isClone = true → ∀ i, op.index = some i → ∃ e, lookupFromIdx st i = .ok e
  fits : ∀ i s, op.index = some i → op.indexStart = some s → xrangePy s (i + 1) = .ok (xrange s (i + 1))

theorem lookup_counts (st : Storage) (c : Counts) (i : Int) : lookupFromIdx { st with counts := c } i = lookupFromIdx st i := rfl

theorem kvAt_counts (st : Storage) (c : Counts) (i : Int) : kvAt { st with counts := c } i = kvAt st i := rfl

theorem execOp_spec (st : Storage) (e : Exec) (op : Op) (hs : e.storage.static = st.static ∧ e.storage.lru = st.lru)
    (h : OpRuns st op) : ∃ e', execOp e op = .ok e' ∧ (e'.storage.static = st.static ∧ e'.storage.lru = st.lru) ∧
      e'.stoggles = (opStog op).foldl toggleSet e.stoggles ∧ e'.etoggles = (opEtog op).foldl toggleSet e.etoggles ∧
      e'.headers = appendAll (opPairs st op) e.headers := by
  obtain ⟨oc, i, s, k, v⟩ := op
  obtain ⟨st', hd, sg, eg, lt⟩ := e
  have h1 := h.shaped .index
  have h2 := h.shaped .indexStart
  have h3 := h.shaped .key
  have h4 := h.shaped .val
  have hlook : ∀ j, lookupFromIdx st' j = lookupFromIdx st j := by
    intro j
    obtain ⟨g1, g2⟩ := hs
    simp only at g1 g2
    simp only [lookupFromIdx, g1, g2]
  cases oc <;> simp [Op.has, shapeOf] at h1 h2 h3 h4 <;> subst_vars
  · obtain ⟨i, rfl⟩ := Option.isSome_iff_exists.1 h1
    exact ⟨_, rfl, hs, rfl, rfl, rfl⟩
  · obtain ⟨i, rfl⟩ := Option.isSome_iff_exists.1 h1
    exact ⟨_, rfl, hs, rfl, rfl, rfl⟩
  · obtain ⟨i, rfl⟩ := Option.isSome_iff_exists.1 h1
    obtain ⟨s, rfl⟩ := Option.isSome_iff_exists.1 h2
    have hf := h.fits i s rfl rfl
    refine ⟨⟨st', hd, (xrange s (i + 1)).foldl toggleSet sg, eg, lt⟩, ?_, hs, rfl, rfl, rfl⟩
    simp only [execOp, Op.idx, Op.start, bind, Except.bind, hf, pure, Except.pure]
  · obtain ⟨i, rfl⟩ := Option.isSome_iff_exists.1 h1
    obtain ⟨s, rfl⟩ := Option.isSome_iff_exists.1 h2
    have hf := h.fits i s rfl rfl
    refine ⟨⟨st', hd, sg, (xrange s (i + 1)).foldl toggleSet eg, lt⟩, ?_, hs, rfl, rfl, rfl⟩
    simp only [execOp, Op.idx, Op.start, bind, Except.bind, hf, pure, Except.pure]
  · obtain ⟨i, rfl⟩ := Option.isSome_iff_exists.1 h1
    obtain ⟨v, rfl⟩ := Option.isSome_iff_exists.1 h4
    obtain ⟨en, hen⟩ := h.live rfl i rfl
    have hx : execOp ⟨st', hd, sg, eg, lt⟩ ⟨.sclone, some i, none, none, some v⟩ = .ok
        { storage := { st' with counts := (kvShareKey st'.counts en.kv v).1 }, headers := appendToHeaders hd en.kv.key v,
          stoggles := sg, etoggles := eg, later := lt ++ [(kvShareKey st'.counts en.kv v).2] } := by
      simp only [execOp, Op.idx, Op.theVal, bind, Except.bind, hlook, hen, pure, Except.pure]
    refine ⟨_, hx, hs, rfl, rfl, ?_⟩
    simp only [appendAll, opPairs, List.foldl_cons, List.foldl_nil, Option.getD_some, kvAt_ok hen]
  · obtain ⟨i, rfl⟩ := Option.isSome_iff_exists.1 h1
    obtain ⟨v, rfl⟩ := Option.isSome_iff_exists.1 h4
    obtain ⟨en, hen⟩ := h.live rfl i rfl
    have hx : execOp ⟨st', hd, sg, eg, lt⟩ ⟨.eclone, some i, none, none, some v⟩ = .ok
        { storage := st', headers := appendToHeaders hd en.kv.key v,
          stoggles := sg, etoggles := eg, later := lt } := by
      simp only [execOp, Op.idx, Op.theVal, bind, Except.bind, hlook, hen, pure, Except.pure]
    refine ⟨_, hx, hs, rfl, rfl, ?_⟩
    simp only [appendAll, opPairs, List.foldl_cons, List.foldl_nil, Option.getD_some, kvAt_ok hen]
  · obtain ⟨k, rfl⟩ := Option.isSome_iff_exists.1 h3
    obtain ⟨v, rfl⟩ := Option.isSome_iff_exists.1 h4
    exact ⟨_, rfl, hs, rfl, rfl, rfl⟩
  · obtain ⟨k, rfl⟩ := Option.isSome_iff_exists.1 h3
    obtain ⟨v, rfl⟩ := Option.isSome_iff_exists.1 h4
    exact ⟨_, rfl, hs, rfl, rfl, rfl⟩

theorem execOps_spec (st : Storage) (ops : List Op) : ∀ e : Exec, e.storage.static = st.static ∧ e.storage.lru = st.lru →
    (∀ op ∈ ops, OpRuns st op) →
    ∃ e', execOps ops e = .ok e' ∧ (e'.storage.static = st.static ∧ e'.storage.lru = st.lru) ∧
      e'.stoggles = (ops.flatMap opStog).foldl toggleSet e.stoggles ∧
      e'.etoggles = (ops.flatMap opEtog).foldl toggleSet e.etoggles ∧
      e'.headers = appendAll (ops.flatMap (opPairs st)) e.headers := by
  induction ops with
  | nil => intro e hs _; exact ⟨e, rfl, hs, rfl, rfl, rfl⟩
  | cons op ops ih =>
    intro e hs h
    obtain ⟨e1, x1, y1, a1, b1, c1⟩ := execOp_spec st e op hs (h op (by simp))
    obtain ⟨e2, x2, y2, a2, b2, c2⟩ := ih e1 y1 (fun o ho => h o (by simp [ho]))
    refine ⟨e2, by simp only [execOps, bind, Except.bind, x1, x2], y2, ?_, ?_, ?_⟩
    · rw [a2, a1, List.flatMap_cons, List.foldl_append]
    · rw [b2, b1, List.flatMap_cons, List.foldl_append]
    · rw [c2, c1, List.flatMap_cons, appendAll, appendAll, appendAll, List.foldl_append]

theorem refHeaders_spec {st : Storage} {a b m : Int} (h : StorageOk st a b m) (is : List Int) (hl : ∀ i ∈ is, Live st i) :
    ∀ hd, refHeaders st is hd = .ok (appendAll (is.map (kvAt st)) hd) := by
  induction is with
  | nil => intro hd; rfl
  | cons i is ih =>
    intro hd
    obtain ⟨e, he⟩ := lookup_live h (hl i (by simp))
    simp only [refHeaders, bind, Except.bind, he, ih (fun j hj => hl j (by simp [hj])), List.map_cons, appendAll,
      List.foldl_cons, kvAt_ok he]

theorem lookupAll_spec {st : Storage} {a b m : Int} (h : StorageOk st a b m) (is : List Int) (hl : ∀ i ∈ is, Live st i) :
    ∃ l, lookupAll st is = .ok l := by
  induction is with
  | nil => exact ⟨[], rfl⟩
  | cons i is ih =>
    obtain ⟨e, he⟩ := lookup_live h (hl i (by simp))
    obtain ⟨l, el⟩ := ih (fun j hj => hl j (by simp [hj]))
    exact ⟨(e.kv, i) :: l, by simp only [lookupAll, bind, Except.bind, he, el, pure, Except.pure]⟩

/-! ### The invariant -/

/-- The storage is in order, and the header groups refer to entries. -/
structure CodecOk (cfg : Config) (s : Codec) : Prop where
  storage : StorageOk s.storage cfg.maxBytes cfg.maxEntries cfg.maxIndex
  wf : Dict.WF s.groups
  groups : ∀ g ∈ s.groups, g.2.Nodup ∧ ∀ i ∈ g.2, Live s.storage i

theorem StorageOk.counts {st : Storage} {a b m : Int} (h : StorageOk st a b m) (c : Counts) :
    StorageOk { st with counts := c } a b m :=
  ⟨h.static, h.staticRing, h.ring, h.offset, h.maxSeq, h.maxItems, h.maxBytes, h.entries, h.bytes⟩

theorem CodecOk.group {cfg : Config} {s : Codec} (h : CodecOk cfg s) (gid : Nat) :
    (s.group gid).Nodup ∧ ∀ i ∈ s.group gid, Live s.storage i := by
  unfold Codec.group
  cases hg : s.groups.get? gid with
  | none => simp
  | some l => exact h.groups _ (Dict.get?_mem hg)

theorem CodecOk.setGroup {cfg : Config} {s : Codec} (h : CodecOk cfg s) (gid : Nat) (l : List Int) (hn : l.Nodup)
    (hl : ∀ i ∈ l, Live s.storage i) : CodecOk cfg { s with groups := s.groups.set gid l } where
  storage := h.storage
  wf := h.wf.set _ _
  groups := by
    intro g hg
    obtain ⟨k, v⟩ := g
    have := (Dict.mem_iff_get? (h.wf.set gid l)).1 hg
    rw [Dict.get?_set] at this
    split at this
    · simp only [Option.some.injEq] at this
      subst this
      exact ⟨hn, hl⟩
    · exact h.groups _ (Dict.get?_mem this)

theorem CodecOk.findOrMake {cfg : Config} {s : Codec} (h : CodecOk cfg s) (gid : Nat) : CodecOk cfg (findOrMake s gid) := by
  unfold Delta2.findOrMake
  split
  · exact h
  · exact h.setGroup gid [] List.nodup_nil (by simp)

theorem findOrMake_storage (s : Codec) (gid : Nat) : (findOrMake s gid).storage = s.storage := by
  unfold findOrMake
  split <;> rfl

theorem findOrMake_group (s : Codec) (gid : Nat) : (findOrMake s gid).group gid = s.group gid := by
  unfold findOrMake
  split
  · rfl
  · rename_i h
    have : s.groups.get? gid = none := by
      unfold Dict.has at h
      simpa using h
    simp only [Codec.group, Dict.get?_set, if_true, this, Option.getD_some, Option.getD_none]

theorem findOrMake_idem (s : Codec) (gid : Nat) : findOrMake (findOrMake s gid) gid = findOrMake s gid := by
  by_cases h : s.groups.has gid = true
  · simp only [findOrMake, if_pos h]
  · have : (s.groups.set gid []).has gid = true := by
      unfold Dict.has
      rw [Dict.get?_set, if_pos rfl]
      rfl
    simp only [findOrMake, if_neg h, if_pos this]

theorem mem_removeVIdx {groups : Dict Nat (List Int)} {e : Entry} {g : Nat × List Int} (h : g ∈ removeVIdx groups e) :
    ∃ l, (g.1, l) ∈ groups ∧ g.2 = l.filter (· ≠ e.seq) := by
  simp only [removeVIdx, List.mem_filter, List.mem_map] at h
  obtain ⟨⟨⟨k, l⟩, hl, rfl⟩, _⟩ := h
  exact ⟨l, hl, rfl⟩

theorem removeVIdx_keys (groups : Dict Nat (List Int)) (e : Entry) :
    ((removeVIdx groups e).map (·.1)).Sublist (groups.map (·.1)) := by
  have : (removeVIdx groups e).Sublist (groups.map fun g => (g.1, g.2.filter (· ≠ e.seq))) := List.filter_sublist
  have h2 := this.map (·.1)
  rw [List.map_map] at h2
  exact h2

theorem removeAll_spec (ps : List Entry) : ∀ groups : Dict Nat (List Int), Dict.WF groups →
    Dict.WF (ps.foldl removeVIdx groups) ∧ ∀ g ∈ ps.foldl removeVIdx groups,
      ∃ l, (g.1, l) ∈ groups ∧ g.2.Sublist l ∧ ∀ e ∈ ps, e.seq ∉ g.2 := by
  induction ps with
  | nil => intro groups h; exact ⟨h, fun g hg => ⟨g.2, hg, .refl _, by simp⟩⟩
  | cons p ps ih =>
    intro groups h
    have hwf : Dict.WF (removeVIdx groups p) := List.Nodup.sublist (removeVIdx_keys groups p) h
    obtain ⟨h1, h2⟩ := ih _ hwf
    refine ⟨h1, fun g hg => ?_⟩
    obtain ⟨l, hl, hsub, hno⟩ := h2 g hg
    obtain ⟨l', hl', he⟩ := mem_removeVIdx hl
    simp only at he
    subst he
    refine ⟨l', hl', hsub.trans List.filter_sublist, fun e he => ?_⟩
    rcases List.mem_cons.1 he with rfl | he
    · intro hc
      have := hsub.subset hc
      simp at this
    · exact hno e he

theorem storeKV_spec {cfg : Config} {s : Codec} (h : CodecOk cfg s) (hb : cfg.maxEntries ≤ cfg.maxIndex - 65) (kv : KV) :
    ∃ s' r, storeKV cfg s kv = .ok (s', r) ∧ CodecOk cfg s' ∧ ∀ i, r = some i → Live s'.storage i := by
  generalize hr : (if cfg.refcntVals then kvShare s.storage.counts kv else kvShareKey s.storage.counts kv kv.val) = r
  obtain ⟨st', ps, i, e, hst, hstatic, keep, hring, hcase⟩ := insertVal_spec (h.storage.counts r.1) hb r.2
  obtain ⟨hwf, hgr⟩ := removeAll_spec ps s.groups h.wf
  refine ⟨⟨st', ps.foldl removeVIdx s.groups⟩, i, ?_, ⟨hst, hwf, ?_⟩, ?_⟩
  · simp only [storeKV, hr, bind, Except.bind, e, pure, Except.pure]
  · intro g hg
    obtain ⟨l, hl, hsub, hno⟩ := hgr g hg
    obtain ⟨h1, h2⟩ := h.groups _ hl
    refine ⟨h1.sublist hsub, fun j hj => ?_⟩
    rcases h2 j (hsub.subset hj) with hs | ⟨en, hen, rfl⟩
    · exact .inl hs
    · have : en ∈ ps ++ keep := by rw [← hring]; exact hen
      rcases List.mem_append.1 this with hp | hk
      · exact absurd hj (hno en hp)
      · refine .inr ⟨en, ?_, rfl⟩
        change en ∈ st'.lru.ring
        rcases hcase with ⟨_, hc⟩ | ⟨_, hc⟩ <;> rw [hc]
        · exact hk
        · exact List.mem_append_left _ hk
  · rintro j rfl
    rcases hcase with ⟨h0, _⟩ | ⟨h0, hc⟩
    · exact absurd h0 (by simp)
    · simp only [Option.some.injEq] at h0
      refine .inr ⟨⟨r.2, j⟩, ?_, rfl⟩
      change _ ∈ st'.lru.ring
      rw [hc, h0]
      simp

theorem CodecOk.change {cfg : Config} {s : Codec} (h : CodecOk cfg s) (gid : Nat) (f : List Int → List Int)
    (hf : ∀ l : List Int, l.Nodup → (∀ i ∈ l, Live s.storage i) → (f l).Nodup ∧ ∀ i ∈ f l, Live s.storage i) :
    CodecOk cfg (changeGroup s gid f) ∧ (changeGroup s gid f).storage = s.storage := by
  unfold changeGroup
  split
  · exact ⟨h, rfl⟩
  · rename_i hg heq
    obtain ⟨h1, h2⟩ := h.groups _ (Dict.get?_mem heq)
    obtain ⟨h3, h4⟩ := hf _ h1 h2
    exact ⟨h.setGroup gid _ h3 h4, rfl⟩

theorem CodecOk.addIdx {cfg : Config} {s : Codec} (h : CodecOk cfg s) (gid : Nat) (r : Option Int)
    (hr : ∀ i, r = some i → Live s.storage i) : CodecOk cfg (addIdx s gid r) := by
  cases r with
  | none => exact h
  | some i =>
    refine (h.change gid (addSet · i) fun l hn hl => ⟨nodup_addSet hn, fun j hj => ?_⟩).1
    rcases mem_addSet.1 hj with hj | rfl
    · exact hl j hj
    · exact hr j rfl

theorem storeLater_spec {cfg : Config} (hb : cfg.maxEntries ≤ cfg.maxIndex - 65) (gid : Nat) (kvs : List KV) :
    ∀ s, CodecOk cfg s → ∃ s', storeLater cfg gid kvs s = .ok s' ∧ CodecOk cfg s' := by
  induction kvs with
  | nil => intro s h; exact ⟨s, rfl, h⟩
  | cons kv kvs ih =>
    intro s h
    obtain ⟨s1, r, e1, h1, hr⟩ := storeKV_spec h hb kv
    obtain ⟨s2, e2, h2⟩ := ih (if cfg.implicitAdd then addIdx s1 gid r else s1) (by
      split
      · exact h1.addIdx gid r hr
      · exact h1)
    exact ⟨s2, by simp only [storeLater, bind, Except.bind, e1, e2], h2⟩

theorem adjustLater_spec {cfg : Config} (hb : cfg.maxEntries ≤ cfg.maxIndex - 65) (gid : Nat) (kvs : List (KV × Int)) :
    ∀ s, CodecOk cfg s → ∃ s', adjustLater cfg gid kvs s = .ok s' ∧ CodecOk cfg s' := by
  induction kvs with
  | nil => intro s h; exact ⟨s, rfl, h⟩
  | cons kv kvs ih =>
    intro s h
    obtain ⟨kv, old⟩ := kv
    have h0 := (h.change gid (fun hg => hg.filter (· ≠ old)) fun l hn hl =>
      ⟨hn.filter _, fun i hi => hl i (List.mem_of_mem_filter hi)⟩).1
    obtain ⟨s1, r, e1, h1, hr⟩ := storeKV_spec h0 hb kv
    obtain ⟨s2, e2, h2⟩ := ih _ (h1.addIdx gid r hr)
    exact ⟨s2, by simp only [adjustLater, bind, Except.bind, e1, e2], h2⟩

/-! ### Executing -/

/-- Operations can be executed in a state: what they toggle is there, and nothing is toggled twice. -/
structure Runnable (st : Storage) (ops : List Op) : Prop where
  runs : ∀ op ∈ ops, OpRuns st op
  snodup : (ops.flatMap opStog).Nodup
  slive : ∀ i ∈ ops.flatMap opStog, Live st i
  enodup : (ops.flatMap opEtog).Nodup
  elive : ∀ i ∈ ops.flatMap opEtog, Live st i

/-- The indices referred to by a message. -/
def refsOf (hg : List Int) (ops : List Op) : List Int := symDiff (ops.flatMap opEtog) (symDiff hg (ops.flatMap opStog))

theorem execute_spec {cfg : Config} (hb : cfg.maxEntries ≤ cfg.maxIndex - 65) {s : Codec} (h : CodecOk cfg s) (gid : Nat)
    (ops hops : List Op) (ht : lruToHg cfg s.storage ops = .ok hops) (hr : Runnable s.storage hops) :
    ∃ s', CodecOk cfg s' ∧ ∀ ord : List Int → List Int, (∀ l, (ord l).Perm l) →
      execute cfg ord s ops gid = .ok (s', fixCookie (appendAll (hops.flatMap (opPairs s.storage) ++
        (ord (refsOf (s.group gid) hops)).map (kvAt s.storage)) [])) := by
  have hm := h.findOrMake gid
  have hst := findOrMake_storage s gid
  have hgr := findOrMake_group s gid
  unfold execute
  generalize findOrMake s gid = f at hm hst hgr ⊢
  obtain ⟨e, x, ⟨y1, y2⟩, a, b, c⟩ := execOps_spec s.storage hops { storage := s.storage } ⟨rfl, rfl⟩ hr.runs
  have a : e.stoggles = hops.flatMap opStog := a.trans (toggle_append (a := []) hr.snodup)
  have b : e.etoggles = hops.flatMap opEtog := b.trans (toggle_append (a := []) hr.enodup)
  have c : e.headers = appendAll (hops.flatMap (opPairs s.storage)) [] := c
  have hes : e.storage = { s.storage with counts := e.storage.counts } := by
    obtain ⟨st, _⟩ := e
    cases st
    simp only at y1 y2
    subst y1 y2
    rfl
  obtain ⟨g1, g2⟩ := h.group gid
  have hhg : ∀ i ∈ symDiff (s.group gid) (hops.flatMap opStog), Live s.storage i := by
    intro i hi
    rcases (mem_symDiff hr.snodup).1 hi with ⟨hi, _⟩ | ⟨_, hi⟩
    · exact g2 i hi
    · exact hr.slive i hi
  have hhn : (symDiff (s.group gid) (hops.flatMap opStog)).Nodup := nodup_symDiff g1
  have hrefs : ∀ i ∈ refsOf (s.group gid) hops, Live s.storage i := by
    intro i hi
    rcases (mem_symDiff hhn).1 hi with ⟨hi, _⟩ | ⟨_, hi⟩
    · exact hr.elive i hi
    · exact hhg i hi
  have hso : StorageOk e.storage cfg.maxBytes cfg.maxEntries cfg.maxIndex := by
    rw [hes]
    exact h.storage.counts _
  have hlive : ∀ i, Live e.storage i ↔ Live s.storage i := by
    intro i
    rw [hes]
    exact Iff.rfl
  have hadj : ∃ l, adjustList cfg e.storage (symDiff (s.group gid) (hops.flatMap opStog)) = .ok l := by
    unfold adjustList
    split
    · refine lookupAll_spec hso _ fun i hi => (hlive i).2 (hhg i ?_)
      exact (Huff.sortBy_perm _ _).subset hi
    · exact ⟨[], rfl⟩
  obtain ⟨adj, hadj⟩ := hadj
  have hc1 : CodecOk cfg { storage := e.storage, groups := f.groups.set gid (symDiff (s.group gid) (hops.flatMap opStog)) } := by
    have hm' : CodecOk cfg { storage := e.storage, groups := f.groups } := by
      refine ⟨hso, hm.wf, fun g hg => ⟨(hm.groups g hg).1, fun i hi => (hlive i).2 ?_⟩⟩
      rw [← hst]
      exact (hm.groups g hg).2 i hi
    exact hm'.setGroup gid _ hhn fun i hi => (hlive i).2 (hhg i hi)
  obtain ⟨s1, e1, h1⟩ := storeLater_spec hb gid e.later _ hc1
  obtain ⟨s2, e2, h2⟩ := adjustLater_spec hb gid adj s1 h1
  refine ⟨s2, h2, fun ord hord => ?_⟩
  have href := refHeaders_spec hso (ord (refsOf (s.group gid) hops)) (fun i hi => (hlive i).2 (hrefs i ((hord _).subset hi))) e.headers
  have hk : kvAt e.storage = kvAt s.storage := by
    rw [hes]
    rfl
  rw [hk] at href
  unfold refsOf at href ⊢
  simp only [hst, hgr, ht, x, a, b, bind, Except.bind, href, hadj, e1, e2, pure, Except.pure]
  rw [c]
  simp only [appendAll, List.foldl_append]

theorem execute_make (cfg : Config) (ord : List Int → List Int) (s : Codec) (ops : List Op) (gid : Nat) :
    execute cfg ord (findOrMake s gid) ops gid = execute cfg ord s ops gid := by
  unfold execute
  rw [findOrMake_idem]

end Verif.Delta2
