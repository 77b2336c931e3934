import Verif.Delta2.CellLemmas
import Verif.Delta2.SessionLemmas
import Verif.Delta2.Any
/-
What a decompressor is left with after a frame, whether it was accepted or an exception was raised.
-/
namespace Verif.Delta2
open Verif

/-! ### The state after an exception -/

/-- The loop spdy4_codec_impl.py 1051-1091: the local variables when it ends or an exception is raised. -/
def execOpsLeft : List Op → Exec → Exec
  | [], e => e
  | op :: ops, e =>
    match execOp e op with
    | .ok e' => execOpsLeft ops e'
    | .error _ => e

/-- spdy4_codec_impl.py 1043-1126, DecompressorExecuteOps: the codec afterwards, also if an exception was raised.  The group is
made first; the counts are changed while the operations are executed; line 1099 changes the group before the entries are
looked up.  (The stores in lines 1113-1123 raise nothing, see `execute_any`.) -/
def executeLeft (cfg : Config) (ord : List Int → List Int) (s : Codec) (ops : List Op) (gid : Nat) : Codec :=
  match execute cfg ord s ops gid with
  | .ok r => r.1
  | .error _ =>
    let s := findOrMake s gid
    match lruToHg cfg s.storage ops with
    | .error _ => s
    | .ok ops =>
      match execOps ops { storage := s.storage } with
      | .error _ => { s with storage := (execOpsLeft ops { storage := s.storage }).storage }
      | .ok e => { storage := e.storage, groups := s.groups.set gid (symDiff (s.group gid) e.stoggles) }

/-- __init__.py 62-66 and spdy4_codec_impl.py 1029-1036: the codec after `decompress`. -/
def decompressLeft (u : Setup) (o : Orders) (s : Codec) (blob : Str) : Codec :=
  match realOpsToOps u.packing blob with
  | .error _ => s
  | .ok (gid, ops) => executeLeft u.cfg o.refsD (findOrMake s gid) ops gid

/-! ### Looking up -/

theorem pyIndex_error {α : Type} {l : List α} {i : Int} {e : PyErr} (h : pyIndex l i = .error e) : e = .index := by
  unfold pyIndex at h
  simp only at h
  generalize (if i < 0 then i + (l.length : Int) else i) = j at h
  split at h
  · cases h; rfl
  · split at h
    · simp at h
    · cases h; rfl

theorem seqNumToIdx_error {s : Lru} {i : Int} {e : PyErr} (h : seqNumToIdx s i = .error e) : e = .index := by
  unfold seqNumToIdx at h
  split at h
  · cases h; rfl
  · split at h
    · cases h; rfl
    · split at h
      · split at h
        · cases h; rfl
        · split at h
          · cases h; rfl
          · simp at h
      · simp at h

theorem look_error {st : Storage} {i : Int} {e : PyErr} (h : lookupFromIdx st i = .error e) : e = .index ∨ e = .standard := by
  have key : ∀ s : Lru, lookup s i = .error e → e = .index ∨ e = .standard := by
    intro s h
    simp only [lookup, bind, Except.bind] at h
    split at h
    · rename_i e' he
      cases h
      exact .inl (seqNumToIdx_error he)
    · split at h
      · rename_i e' he
        cases h
        exact .inl (pyIndex_error he)
      · split at h
        · cases h
          exact .inr rfl
        · simp [pure, Except.pure] at h
  unfold lookupFromIdx at h
  split at h
  · exact key _ h
  · exact key _ h

theorem lookup_live_iff {st : Storage} {a b m : Int} (h : StorageOk st a b m) (i : Int) :
    (∃ e, lookupFromIdx st i = .ok e) ↔ Live st i := by
  refine ⟨fun ⟨e, he⟩ => ?_, lookup_live h⟩
  unfold lookupFromIdx at he
  split at he
  · obtain ⟨h1, rfl⟩ := (lookup_iff h.staticRing _ _).1 he
    exact .inl (static_seq h h1)
  · obtain ⟨h1, rfl⟩ := (lookup_iff h.ring _ _).1 he
    exact .inr ⟨e, h1, rfl⟩

theorem toHg_total {st : Storage} {a b m : Int} (h : StorageOk st a b m) {j : Int} (h0 : 0 ≤ j) :
    ∃ i, lruIdxToHgIdx st j = .ok i := by
  by_cases hj : j < st.lru.ring.length + 65
  · obtain ⟨i, hi, _⟩ := toHg_spec h h0 hj
    exact ⟨i, hi⟩
  · exact ⟨_, by unfold lruIdxToHgIdx; rw [if_neg (by omega)]⟩

/-- The fields are there, and the indices are not negative. -/
structure Sent (op : Op) : Prop where
  shaped : Shaped op
  index : ∀ i, op.index = some i → 0 ≤ i
  start : ∀ i, op.indexStart = some i → 0 ≤ i

theorem OpOk.sent {p : IntPack} {op : Op} (h : OpOk p op) : Sent op := by
  refine ⟨h.shaped, fun i hi => ?_, fun i hi => ?_⟩
  · have := h.vals.index i hi
    cases p <;> simp only [IntOk] at this <;> omega
  · have := h.vals.start i hi
    cases p <;> simp only [IntOk] at this <;> omega

theorem optMapPy_some {f : Int → Py Int} {x : Option Int} (h : ∀ i, x = some i → ∃ j, f i = .ok j) :
    ∃ y, optMapPy f x = .ok y ∧ y.isSome = x.isSome := by
  cases x with
  | none => exact ⟨none, rfl, rfl⟩
  | some i =>
    obtain ⟨j, hj⟩ := h i rfl
    exact ⟨some j, by simp only [optMapPy, bind, Except.bind, hj, pure, Except.pure], rfl⟩

theorem lruToHg_total {cfg : Config} {st : Storage} {a b m : Int} (h : StorageOk st a b m) (ops : List Op) (ho : ∀ op ∈ ops, Sent op) :
    ∃ ops', lruToHg cfg st ops = .ok ops' ∧ ∀ op ∈ ops', Shaped op := by
  unfold lruToHg
  split
  · induction ops with
    | nil => exact ⟨[], rfl, by simp⟩
    | cons op ops ih =>
      obtain ⟨ops', e1, h1⟩ := ih fun o h => ho o (by simp [h])
      have hs := ho op (by simp)
      obtain ⟨x, ex, hx⟩ := optMapPy_some (f := lruIdxToHgIdx st) (x := op.index) fun i hi => toHg_total h (hs.index i hi)
      obtain ⟨y, ey, hy⟩ := optMapPy_some (f := lruIdxToHgIdx st) (x := op.indexStart) fun i hi => toHg_total h (hs.start i hi)
      refine ⟨{ op with index := x, indexStart := y } :: ops', ?_, fun o ho' => ?_⟩
      · simp only [translateOps, translateOp, bind, Except.bind, ex, ey, pure, Except.pure, e1]
      · rcases List.mem_cons.1 ho' with rfl | ho'
        · intro f
          have := hs.shaped f
          cases f <;> simp only [Op.has] at this ⊢
          · rw [hx]; exact this
          · rw [hy]; exact this
          · exact this
          · exact this
        · exact h1 o ho'
  · exact ⟨ops, rfl, fun op h => (ho op h).shaped⟩

/-! ### Executing anything -/

/-- The exceptions of the receiver. -/
def Bad (e : PyErr) : Prop := e = .index ∨ e = .standard ∨ e = .overflow

theorem execOp_any {st : Storage} {e : Exec} {op : Op} (hs : e.storage.static = st.static ∧ e.storage.lru = st.lru)
    (h : Shaped op) : OpRuns st op ∨ ∃ err, execOp e op = .error err ∧ Bad err := by
  have hlook : ∀ j, lookupFromIdx e.storage j = lookupFromIdx st j := by
    intro j
    simp only [lookupFromIdx, hs.1, hs.2]
  obtain ⟨oc, i, s, k, v⟩ := op
  have h1 := h .index
  have h2 := h .indexStart
  have h3 := h .key
  have h4 := h .val
  cases oc <;> simp [Op.has, shapeOf] at h1 h2 h3 h4 <;> subst_vars
  · exact .inl ⟨h, by simp [Opcode.isClone], by simp⟩
  · exact .inl ⟨h, by simp [Opcode.isClone], by simp⟩
  · obtain ⟨i, rfl⟩ := Option.isSome_iff_exists.1 h1
    obtain ⟨s, rfl⟩ := Option.isSome_iff_exists.1 h2
    cases hx : xrangePy s (i + 1) with
    | ok l =>
      refine .inl ⟨h, by simp [Opcode.isClone], fun i' s' e1 e2 => ?_⟩
      cases e1
      cases e2
      unfold xrangePy at hx ⊢
      split at hx
      · rename_i hc
        rw [if_pos hc]
      · simp at hx
    | error err =>
      refine .inr ⟨err, by simp only [execOp, Op.idx, Op.start, bind, Except.bind, hx], .inr (.inr ?_)⟩
      unfold xrangePy at hx
      split at hx
      · simp at hx
      · cases hx; rfl
  · obtain ⟨i, rfl⟩ := Option.isSome_iff_exists.1 h1
    obtain ⟨s, rfl⟩ := Option.isSome_iff_exists.1 h2
    cases hx : xrangePy s (i + 1) with
    | ok l =>
      refine .inl ⟨h, by simp [Opcode.isClone], fun i' s' e1 e2 => ?_⟩
      cases e1
      cases e2
      unfold xrangePy at hx ⊢
      split at hx
      · rename_i hc
        rw [if_pos hc]
      · simp at hx
    | error err =>
      refine .inr ⟨err, by simp only [execOp, Op.idx, Op.start, bind, Except.bind, hx], .inr (.inr ?_)⟩
      unfold xrangePy at hx
      split at hx
      · simp at hx
      · cases hx; rfl
  · obtain ⟨i, rfl⟩ := Option.isSome_iff_exists.1 h1
    obtain ⟨v, rfl⟩ := Option.isSome_iff_exists.1 h4
    cases hx : lookupFromIdx st i with
    | ok en =>
      refine .inl ⟨h, fun _ j hj => ?_, by simp⟩
      cases hj
      exact ⟨en, hx⟩
    | error err =>
      refine .inr ⟨err, by simp only [execOp, Op.idx, Op.theVal, bind, Except.bind, hlook, hx], ?_⟩
      rcases look_error hx with rfl | rfl
      · exact .inl rfl
      · exact .inr (.inl rfl)
  · obtain ⟨i, rfl⟩ := Option.isSome_iff_exists.1 h1
    obtain ⟨v, rfl⟩ := Option.isSome_iff_exists.1 h4
    cases hx : lookupFromIdx st i with
    | ok en =>
      refine .inl ⟨h, fun _ j hj => ?_, by simp⟩
      cases hj
      exact ⟨en, hx⟩
    | error err =>
      refine .inr ⟨err, by simp only [execOp, Op.idx, Op.theVal, bind, Except.bind, hlook, hx], ?_⟩
      rcases look_error hx with rfl | rfl
      · exact .inl rfl
      · exact .inr (.inl rfl)
  · exact .inl ⟨h, by simp [Opcode.isClone], by simp⟩
  · exact .inl ⟨h, by simp [Opcode.isClone], by simp⟩

theorem execOps_any {st : Storage} (ops : List Op) : ∀ {e : Exec}, e.storage.static = st.static ∧ e.storage.lru = st.lru →
    (∀ op ∈ ops, Shaped op) → (∀ op ∈ ops, OpRuns st op) ∨ ∃ err, execOps ops e = .error err ∧ Bad err := by
  induction ops with
  | nil => intro e _ _; exact .inl (by simp)
  | cons op ops ih =>
    intro e hs h
    rcases execOp_any hs (h op (by simp)) with h1 | ⟨err, he, hb⟩
    · obtain ⟨e1, x1, y1, _⟩ := execOp_spec st e op hs h1
      rcases ih y1 fun o ho => h o (by simp [ho]) with h2 | ⟨err, he, hb⟩
      · refine .inl fun o ho => ?_
        rcases List.mem_cons.1 ho with rfl | ho
        · exact h1
        · exact h2 o ho
      · exact .inr ⟨err, by simp only [execOps, bind, Except.bind, x1, he], hb⟩
    · exact .inr ⟨err, by simp only [execOps, bind, Except.bind, he], hb⟩

theorem refHeaders_any {st : Storage} {a b m : Int} (h : StorageOk st a b m) (is : List Int) : ∀ hd : Dict Str Str,
    (∀ i ∈ is, Live st i) ∨ ∃ err, refHeaders st is hd = .error err ∧ Bad err := by
  induction is with
  | nil => intro hd; exact .inl (by simp)
  | cons i is ih =>
    intro hd
    cases hx : lookupFromIdx st i with
    | error err =>
      refine .inr ⟨err, by simp only [refHeaders, bind, Except.bind, hx], ?_⟩
      rcases look_error hx with rfl | rfl
      · exact .inl rfl
      · exact .inr (.inl rfl)
    | ok e =>
      rcases ih (appendToHeaders hd e.kv.key e.kv.val) with h1 | ⟨err, he, hb⟩
      · refine .inl fun j hj => ?_
        rcases List.mem_cons.1 hj with rfl | hj
        · exact (lookup_live_iff h _).1 ⟨e, hx⟩
        · exact h1 j hj
      · exact .inr ⟨err, by simp only [refHeaders, bind, Except.bind, hx, he], hb⟩

theorem lookupAll_any {st : Storage} {a b m : Int} (h : StorageOk st a b m) (is : List Int) :
    (∀ i ∈ is, Live st i) ∨ ∃ err, lookupAll st is = .error err ∧ Bad err := by
  induction is with
  | nil => exact .inl (by simp)
  | cons i is ih =>
    cases hx : lookupFromIdx st i with
    | error err =>
      refine .inr ⟨err, by simp only [lookupAll, bind, Except.bind, hx], ?_⟩
      rcases look_error hx with rfl | rfl
      · exact .inl rfl
      · exact .inr (.inl rfl)
    | ok e =>
      rcases ih with h1 | ⟨err, he, hb⟩
      · refine .inl fun j hj => ?_
        rcases List.mem_cons.1 hj with rfl | hj
        · exact (lookup_live_iff h _).1 ⟨e, hx⟩
        · exact h1 j hj
      · exact .inr ⟨err, by simp only [lookupAll, bind, Except.bind, hx, he], hb⟩

/-! ### What stays true whatever arrives -/

/-- The storage is in order; the groups may refer to anything. -/
structure Base (cfg : Config) (s : Codec) : Prop where
  storage : StorageOk s.storage cfg.maxBytes cfg.maxEntries cfg.maxIndex
  cells : StoreCells cfg.refcntVals cfg.maxBytes s.storage
  wf : Dict.WF s.groups
  nodup : ∀ g ∈ s.groups, g.2.Nodup

theorem get?_removeVIdx (groups : Dict Nat (List Int)) (e : Entry) (hwf : Dict.WF groups) (gid : Nat) :
    (Dict.get? (removeVIdx groups e) gid).getD [] = ((groups.get? gid).getD []).filter (· ≠ e.seq) := by
  have hw : Dict.WF (removeVIdx groups e) := List.Nodup.sublist (removeVIdx_keys groups e) hwf
  cases hg : Dict.get? (removeVIdx groups e) gid with
  | some l =>
    obtain ⟨l', hl', he⟩ := mem_removeVIdx (Dict.get?_mem hg)
    have := (Dict.mem_iff_get? hwf).1 hl'
    simp only at this he
    rw [this]
    exact he
  | none =>
    cases hg' : Dict.get? groups gid with
    | none => rfl
    | some l =>
      simp only [Option.getD_some, Option.getD_none]
      by_contra hne
      have hm : (gid, l.filter (· ≠ e.seq)) ∈ removeVIdx groups e := by
        simp only [removeVIdx, List.mem_filter, List.mem_map]
        exact ⟨⟨(gid, l), Dict.get?_mem hg', rfl⟩, by simpa using Ne.symm hne⟩
      rw [(Dict.mem_iff_get? hw).1 hm] at hg
      simp at hg

theorem removeAll_mem (ps : List Entry) : ∀ {groups : Dict Nat (List Int)}, Dict.WF groups → ∀ {gid : Nat} {i : Int},
    (∀ e ∈ ps, e.seq ≠ i) → i ∈ (groups.get? gid).getD [] → i ∈ (Dict.get? (ps.foldl removeVIdx groups) gid).getD [] := by
  induction ps with
  | nil => intro groups _ gid i _ h; exact h
  | cons p ps ih =>
    intro groups hwf gid i hp h
    have hw : Dict.WF (removeVIdx groups p) := List.Nodup.sublist (removeVIdx_keys groups p) hwf
    refine ih hw (fun e he => hp e (by simp [he])) ?_
    rw [get?_removeVIdx groups p hwf]
    simp only [List.mem_filter, decide_eq_true_eq]
    exact ⟨h, fun h' => hp p (by simp) h'.symm⟩

/-- A store raises nothing, and keeps negative indices in the groups. -/
theorem storeKV_base {cfg : Config} {s : Codec} (h : Base cfg s) (hb : cfg.maxEntries ≤ cfg.maxIndex - 65) (kv : KV)
    (hk : Storable cfg.refcntVals s.storage kv) :
    ∃ s' r, storeKV cfg s kv = .ok (s', r) ∧ Base cfg s' ∧ (∀ a, s.storage.Held a → s'.storage.Held a) ∧
      ∀ gid i, i < 0 → i ∈ s.group gid → i ∈ s'.group gid := by
  generalize hr : (if cfg.refcntVals then kvShare s.storage.counts kv else kvShareKey s.storage.counts kv kv.val) = r
  obtain ⟨st', ps, i, e, hst, hstatic, keep, hring, hcase⟩ := insertVal_spec (h.storage.counts r.1) hb r.2
  obtain ⟨hwf, hgr⟩ := removeAll_spec ps s.groups h.wf
  have hx : storeKV cfg s kv = .ok (⟨st', ps.foldl removeVIdx s.groups⟩, i) := by
    simp only [storeKV, hr, bind, Except.bind, e, pure, Except.pure]
  obtain ⟨c1, c2⟩ := storeKV_cells h.cells hk hx
  refine ⟨_, i, hx, ⟨hst, c1, hwf, fun g hg => ?_⟩, c2, fun gid j hj hm => ?_⟩
  · obtain ⟨l, hl, hsub, _⟩ := hgr g hg
    exact (h.nodup _ hl).sublist hsub
  · refine removeAll_mem ps h.wf (fun en hen => ?_) hm
    have hmem : en ∈ s.storage.lru.ring := by
      have : en ∈ ps ++ keep := List.mem_append_left _ hen
      rw [← hring] at this
      exact this
    have := (h.storage.ring.range hmem).1
    rw [h.storage.offset] at this
    push_cast at this
    omega

theorem Base.setGroup {cfg : Config} {s : Codec} (h : Base cfg s) (gid : Nat) (l : List Int) (hn : l.Nodup) :
    Base cfg { s with groups := s.groups.set gid l } where
  storage := h.storage
  cells := h.cells
  wf := h.wf.set _ _
  nodup := by
    intro g hg
    obtain ⟨k, v⟩ := g
    have := (Dict.mem_iff_get? (h.wf.set gid l)).1 hg
    rw [Dict.get?_set] at this
    split at this
    · simp only [Option.some.injEq] at this
      subst this
      exact hn
    · exact h.nodup _ (Dict.get?_mem this)

theorem group_set_ne (s : Codec) {gid g : Nat} (hne : g ≠ gid) (l : List Int) :
    ({ s with groups := s.groups.set gid l } : Codec).group g = s.group g := by
  simp only [Codec.group, Dict.get?_set, if_neg (Ne.symm hne)]

theorem Base.group {cfg : Config} {s : Codec} (h : Base cfg s) (gid : Nat) : (s.group gid).Nodup := by
  unfold Codec.group
  cases hg : s.groups.get? gid with
  | none => simp
  | some l => exact h.nodup _ (Dict.get?_mem hg)

theorem Base.change {cfg : Config} {s : Codec} (h : Base cfg s) (gid : Nat) (f : List Int → List Int)
    (hf : ∀ l : List Int, l.Nodup → (f l).Nodup) : Base cfg (changeGroup s gid f) := by
  unfold changeGroup
  split
  · exact h
  · rename_i hg heq
    exact h.setGroup gid _ (hf _ (h.nodup _ (Dict.get?_mem heq)))

theorem change_other (s : Codec) {gid g : Nat} (hne : g ≠ gid) (f : List Int → List Int) : (changeGroup s gid f).group g = s.group g := by
  unfold changeGroup
  split
  · rfl
  · exact group_set_ne s hne _

theorem Base.addIdx {cfg : Config} {s : Codec} (h : Base cfg s) (gid : Nat) (r : Option Int) : Base cfg (addIdx s gid r) := by
  cases r with
  | none => exact h
  | some i => exact h.change gid _ fun l hn => nodup_addSet hn

theorem addIdx_other (s : Codec) {gid g : Nat} (hne : g ≠ gid) (r : Option Int) : (Delta2.addIdx s gid r).group g = s.group g := by
  cases r with
  | none => rfl
  | some i => exact change_other s hne _

theorem storeLater_base {cfg : Config} (hb : cfg.maxEntries ≤ cfg.maxIndex - 65) (gid : Nat) (kvs : List KV) :
    ∀ s, Base cfg s → (∀ kv ∈ kvs, Storable cfg.refcntVals s.storage kv) → ∃ s', storeLater cfg gid kvs s = .ok s' ∧ Base cfg s' ∧
      (∀ a, s.storage.Held a → s'.storage.Held a) ∧ ∀ g i, g ≠ gid → i < 0 → i ∈ s.group g → i ∈ s'.group g := by
  induction kvs with
  | nil => intro s h _; exact ⟨s, rfl, h, fun _ h => h, fun _ _ _ _ h => h⟩
  | cons kv kvs ih =>
    intro s h hk
    obtain ⟨s1, r, e1, h1, m1, k1⟩ := storeKV_base h hb kv (hk kv (by simp))
    have hs : (if cfg.implicitAdd then Delta2.addIdx s1 gid r else s1).storage = s1.storage := by
      split
      · exact addIdx_storage _ _ _
      · rfl
    obtain ⟨s2, e2, h2, m2, k2⟩ := ih (if cfg.implicitAdd then Delta2.addIdx s1 gid r else s1) (by
      split
      · exact h1.addIdx gid r
      · exact h1) (fun kv' hkv' => by rw [hs]; exact storable_mono m1 (hk kv' (by simp [hkv'])))
    refine ⟨s2, by simp only [storeLater, bind, Except.bind, e1, e2], h2, fun a ha => m2 a (by rw [hs]; exact m1 a ha), ?_⟩
    intro g i hne hi hm
    refine k2 g i hne hi ?_
    have := k1 g i hi hm
    split
    · rwa [addIdx_other s1 hne]
    · exact this

theorem adjustLater_base {cfg : Config} (hb : cfg.maxEntries ≤ cfg.maxIndex - 65) (gid : Nat) (kvs : List (KV × Int)) :
    ∀ s, Base cfg s → (∀ kv ∈ kvs, Storable cfg.refcntVals s.storage kv.1) → ∃ s', adjustLater cfg gid kvs s = .ok s' ∧ Base cfg s' ∧
      ∀ g i, g ≠ gid → i < 0 → i ∈ s.group g → i ∈ s'.group g := by
  induction kvs with
  | nil => intro s h _; exact ⟨s, rfl, h, fun _ _ _ _ h => h⟩
  | cons kv kvs ih =>
    intro s h hk
    obtain ⟨kv, old⟩ := kv
    have h0 := h.change gid (fun hg => hg.filter (· ≠ old)) fun l hn => hn.filter _
    have hs0 := changeGroup_storage s gid fun hg => hg.filter (· ≠ old)
    obtain ⟨s1, r, e1, h1, m1, k1⟩ := storeKV_base h0 hb kv (by rw [hs0]; exact hk (kv, old) (by simp))
    have hs1 := addIdx_storage s1 gid r
    obtain ⟨s2, e2, h2, k2⟩ := ih _ (h1.addIdx gid r) (fun kv' hkv' => by
      rw [hs1]
      exact storable_mono m1 (by rw [hs0]; exact hk kv' (by simp [hkv'])))
    refine ⟨s2, by simp only [adjustLater, bind, Except.bind, e1, e2], h2, fun g i hne hi hm => ?_⟩
    refine k2 g i hne hi ?_
    rw [addIdx_other s1 hne]
    refine k1 g i hi ?_
    rwa [change_other s hne]

theorem execOpsLeft_cells {rv : Bool} {m : Int} (ops : List Op) : ∀ {e : Exec}, StoreCells rv m e.storage →
    (∀ kv ∈ e.later, Storable rv e.storage kv) → StoreCells rv m (execOpsLeft ops e).storage ∧
      (execOpsLeft ops e).storage.lru = e.storage.lru ∧ (execOpsLeft ops e).storage.static = e.storage.static := by
  induction ops with
  | nil => intro e h _; exact ⟨h, rfl, rfl⟩
  | cons op ops ih =>
    intro e h hl
    unfold execOpsLeft
    cases hx : execOp e op with
    | ok e' =>
      obtain ⟨a1, a2, a3, a4, _⟩ := execOp_cells h hl hx
      obtain ⟨b1, b2, b3⟩ := ih a1 a2
      exact ⟨b1, b2.trans a3, b3.trans a4⟩
    | error _ => exact ⟨h, rfl, rfl⟩

theorem Base.counts {cfg : Config} {s : Codec} (h : Base cfg s) {st : Storage} (h1 : st.static = s.storage.static)
    (h2 : st.lru = s.storage.lru) (h3 : StoreCells cfg.refcntVals cfg.maxBytes st) : Base cfg { s with storage := st } := by
  obtain ⟨c, a, l⟩ := st
  simp only at h1 h2
  subst h1 h2
  exact ⟨h.storage.counts c, h3, h.wf, h.nodup⟩

theorem Base.findOrMake {cfg : Config} {s : Codec} (h : Base cfg s) (gid : Nat) : Base cfg (findOrMake s gid) := by
  unfold Delta2.findOrMake
  split
  · exact h
  · exact h.setGroup gid [] List.nodup_nil

theorem findOrMake_other (s : Codec) (gid g : Nat) : (Delta2.findOrMake s gid).group g = s.group g := by
  by_cases hg : g = gid
  · subst hg
    exact findOrMake_group s g
  · unfold Delta2.findOrMake
    split
    · rfl
    · exact group_set_ne s hg []

/-! ### All together -/

/-- The group after the toggles of some operations. -/
def groupAfter (hg : List Int) (ops : List Op) : List Int := symDiff hg ((ops.flatMap opStog).foldl toggleSet [])

/-- The entries referred to. -/
def refsAfter (hg : List Int) (ops : List Op) : List Int := symDiff ((ops.flatMap opEtog).foldl toggleSet []) (groupAfter hg ops)

/-- All entries the operations need are there, and no range is too large. -/
structure Accept (cfg : Config) (st : Storage) (hg : List Int) (ops : List Op) : Prop where
  runs : ∀ op ∈ ops, OpRuns st op
  refs : ∀ i ∈ refsAfter hg ops, Live st i
  group : cfg.hgAdjust = true → ∀ i ∈ groupAfter hg ops, Live st i

theorem execute_any {cfg : Config} (hb : cfg.maxEntries ≤ cfg.maxIndex - 65) {s : Codec} (h : Base cfg s) (gid : Nat) (ops : List Op)
    (ho : ∀ op ∈ ops, Sent op) (ord : List Int → List Int) (hord : ∀ l, (ord l).Perm l) :
    ∃ hops, lruToHg cfg s.storage ops = .ok hops ∧ Base cfg (executeLeft cfg ord s ops gid) ∧
      (∀ g i, g ≠ gid → i < 0 → i ∈ s.group g → i ∈ (executeLeft cfg ord s ops gid).group g) ∧
      ((Accept cfg s.storage (s.group gid) hops ∧ ∃ out, execute cfg ord s ops gid = .ok (executeLeft cfg ord s ops gid, out)) ∨
      (¬ Accept cfg s.storage (s.group gid) hops ∧ (∃ err, execute cfg ord s ops gid = .error err ∧ Bad err) ∧
        ((executeLeft cfg ord s ops gid).group gid = s.group gid ∨
          (executeLeft cfg ord s ops gid).group gid = groupAfter (s.group gid) hops))) := by
  obtain ⟨hops, ht, hsh⟩ := lruToHg_total (cfg := cfg) h.storage ops ho
  refine ⟨hops, ht, ?_⟩
  have hm := h.findOrMake gid
  have hst := findOrMake_storage s gid
  have hgr := findOrMake_group s gid
  have hoth := fun g => findOrMake_other s gid g
  unfold executeLeft execute
  generalize findOrMake s gid = f at hm hst hgr hoth ⊢
  simp only [hst, hgr, ht, bind, Except.bind]
  have hcells : StoreCells cfg.refcntVals cfg.maxBytes ({ storage := s.storage } : Exec).storage := h.cells
  rcases execOps_any (st := s.storage) hops (e := { storage := s.storage }) ⟨rfl, rfl⟩ hsh with hr | ⟨err, he, hbad⟩
  · obtain ⟨e, x, ⟨y1, y2⟩, a, b, _⟩ := execOps_spec s.storage hops { storage := s.storage } ⟨rfl, rfl⟩ hr
    obtain ⟨c1, c2, _⟩ := execOps_cells hops hcells (by simp) x
    have hso : StorageOk e.storage cfg.maxBytes cfg.maxEntries cfg.maxIndex := by
      obtain ⟨⟨_, _, _⟩, _⟩ := e
      simp only at y1 y2
      subst y1 y2
      exact h.storage.counts _
    have hlive : ∀ i, Live e.storage i ↔ Live s.storage i := by
      intro i
      simp only [Live, y2]
    have hA : symDiff (s.group gid) e.stoggles = groupAfter (s.group gid) hops := by rw [a]; rfl
    have hB : symDiff e.etoggles (groupAfter (s.group gid) hops) = refsAfter (s.group gid) hops := by rw [b]; rfl
    have hbase : Base cfg { storage := e.storage, groups := f.groups.set gid (groupAfter (s.group gid) hops) } := by
      have := (hm.counts (st := e.storage) (by rw [y1, hst]) (by rw [y2, hst]) c1).setGroup gid (groupAfter (s.group gid) hops)
        (nodup_symDiff (h.group gid))
      exact this
    have hself : ({ storage := e.storage, groups := f.groups.set gid (groupAfter (s.group gid) hops) } : Codec).group gid =
        groupAfter (s.group gid) hops := by
      simp only [Codec.group, Dict.get?_set, if_true, Option.getD_some]
    have hne : ∀ g, g ≠ gid → ({ storage := e.storage, groups := f.groups.set gid (groupAfter (s.group gid) hops) } : Codec).group g =
        s.group g := by
      intro g hg
      rw [← hoth g]
      exact group_set_ne { storage := e.storage, groups := f.groups } hg _
    simp only [x, hA, hB]
    rcases refHeaders_any hso (ord (refsAfter (s.group gid) hops)) e.headers with hl | ⟨err, he, hbad⟩
    · have href := refHeaders_spec hso _ hl e.headers
      have hrefs : ∀ i ∈ refsAfter (s.group gid) hops, Live s.storage i := fun i hi =>
        (hlive i).1 (hl i ((hord _).symm.subset hi))
      simp only [href]
      have hadj : (∃ l, adjustList cfg e.storage (groupAfter (s.group gid) hops) = .ok l ∧
          (∀ kv ∈ l, Storable cfg.refcntVals e.storage kv.1) ∧ Accept cfg s.storage (s.group gid) hops) ∨
          ∃ err, adjustList cfg e.storage (groupAfter (s.group gid) hops) = .error err ∧ Bad err ∧
            ¬ Accept cfg s.storage (s.group gid) hops := by
        unfold adjustList
        split
        · rename_i had
          rcases lookupAll_any hso (Huff.sortBy (fun a b => decide (a ≤ b)) (groupAfter (s.group gid) hops)) with hl2 | ⟨err, he, hbad⟩
          · obtain ⟨l, e3⟩ := lookupAll_spec hso _ hl2
            exact .inl ⟨l, e3, lookupAll_storable c1 _ e3, hr, hrefs, fun _ i hi =>
              (hlive i).1 (hl2 i ((Huff.sortBy_perm _ _).symm.subset hi))⟩
          · refine .inr ⟨err, he, hbad, fun hacc => ?_⟩
            obtain ⟨l, e3⟩ := lookupAll_spec hso (Huff.sortBy (fun a b => decide (a ≤ b)) (groupAfter (s.group gid) hops))
              fun i hi => (hlive i).2 (hacc.group had i ((Huff.sortBy_perm _ _).subset hi))
            rw [e3] at he
            simp at he
        · rename_i had
          exact .inl ⟨[], rfl, by simp, hr, hrefs, fun h' => absurd h' had⟩
      rcases hadj with ⟨l, e3, hl3, hacc⟩ | ⟨err, e3, hbad, hnacc⟩
      · obtain ⟨s1, e4, b4, m4, k4⟩ := storeLater_base hb gid e.later _ hbase c2
        obtain ⟨s2, e5, b5, k5⟩ := adjustLater_base hb gid l s1 b4 (fun kv hkv => storable_mono m4 (hl3 kv hkv))
        simp only [e3, e4, e5, pure, Except.pure]
        refine ⟨b5, fun g i hg hi hmem => k5 g i hg hi (k4 g i hg hi ?_), .inl ⟨hacc, _, rfl⟩⟩
        rw [hne g hg]
        exact hmem
      · simp only [e3]
        refine ⟨hbase, fun g i hg hi hmem => ?_, .inr ⟨hnacc, ⟨err, rfl, hbad⟩, .inr hself⟩⟩
        rw [hne g hg]
        exact hmem
    · simp only [he]
      refine ⟨hbase, fun g i hg hi hmem => ?_, .inr ⟨fun hacc => ?_, ⟨err, rfl, hbad⟩, .inr hself⟩⟩
      · rw [hne g hg]
        exact hmem
      · have := refHeaders_spec hso (ord (refsAfter (s.group gid) hops))
          (fun i hi => (hlive i).2 (hacc.refs i ((hord _).subset hi))) e.headers
        rw [this] at he
        simp at he
  · simp only [he]
    obtain ⟨c1, c2, c3⟩ := execOpsLeft_cells hops hcells (by simp)
    refine ⟨hm.counts (by rw [c3, hst]) (by rw [c2, hst]) c1, fun g i hg hi hmem => ?_, .inr ⟨fun hacc => ?_, ⟨err, rfl, hbad⟩, .inl hgr⟩⟩
    · have := hoth g
      simp only [Codec.group] at this hmem ⊢
      rw [this]
      exact hmem
    · obtain ⟨e, x, _⟩ := execOps_spec s.storage hops { storage := s.storage } ⟨rfl, rfl⟩ hacc.runs
      rw [x] at he
      simp at he

end Verif.Delta2
