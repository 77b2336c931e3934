import Verif.Delta2.Repeat
/-
delta2 never stores a `:path`: what the table has of them is "/".
-/
namespace Verif.Delta2
open Verif

/-- If this is a `:path`, it is the one of the static table. -/
def PlainPath (x : Hdr) : Prop := x.1 = b!":path" → x.2 = b!"/"

def PathOk (st : Storage) : Prop := ∀ e ∈ st.lru.ring, PlainPath (e.kv.key, e.kv.val)

theorem static_path {st : Storage} {a b m : Int} (h : StorageOk st a b m) {e : Entry} (he : e ∈ st.static.ring) :
    PlainPath (e.kv.key, e.kv.val) := by
  have : (e.kv.key, e.kv.val, e.seq) ∈ st.static.ring.map (fun e => (e.kv.key, e.kv.val, e.seq)) := List.mem_map.2 ⟨e, he, rfl⟩
  rw [h.static, List.mem_map] at this
  obtain ⟨⟨x, n⟩, hx, hq⟩ := this
  have hx : x ∈ defaultKvs := List.fst_mem_of_mem_zipIdx hx
  simp only [Prod.mk.injEq] at hq
  rw [← hq.1, ← hq.2.1]
  exact (by decide +kernel : ∀ x ∈ defaultKvs, x.1 = b!":path" → x.2 = b!"/") x hx

theorem path_static {st : Storage} {a b m : Int} (h : StorageOk st a b m) : ∃ e ∈ st.static.ring, e.kv.key = b!":path" := by
  have hm : ((b!":path", b!"/"), 64) ∈ defaultKvs.zipIdx := by decide +kernel
  have : (b!":path", b!"/", ((64 : Nat) : Int)) ∈ st.static.ring.map (fun e => (e.kv.key, e.kv.val, e.seq)) := by
    rw [h.static, List.mem_map]
    exact ⟨_, hm, rfl⟩
  obtain ⟨e, he, hq⟩ := List.mem_map.1 this
  simp only [Prod.mk.injEq] at hq
  exact ⟨e, he, hq.1⟩

theorem table_path {st : Storage} {a b m : Int} (h : StorageOk st a b m) (hp : PathOk st) {x : Hdr} (hx : InTable st x) :
    PlainPath x := by
  obtain ⟨e, he, rfl⟩ := hx
  rcases List.mem_append.1 he with he | he
  · exact static_path h he
  · exact hp e he

/-! ### Finding a key -/

theorem findVal_key (key val : Str) (ke : Entry) (l : List Entry) : ∃ v, (findVal key val ke l).1 = some v := by
  induction l with
  | nil => exact ⟨_, rfl⟩
  | cons e es ih =>
    rw [findVal]
    split
    · exact ⟨_, rfl⟩
    · exact ih

theorem findKeyVal_key (key val : Str) (l : List Entry) (h : ∃ e ∈ l, e.kv.key = key) : ∃ v, (findKeyVal key val l).1 = some v := by
  induction l with
  | nil => simp at h
  | cons e es ih =>
    obtain ⟨e', he', hk⟩ := h
    rw [findKeyVal]
    split
    · split
      · exact ⟨_, rfl⟩
      · exact findVal_key _ _ _ _
    · rename_i h1
      rcases List.mem_cons.1 he' with rfl | he'
      · exact absurd hk h1
      · exact ih ⟨e', he', hk⟩

theorem findEntryIdx_key {st : Storage} {key : Str} (h : ∃ e ∈ st.static.ring, e.kv.key = key) (val : Str) :
    findEntryIdx st key val ≠ (none, none) := by
  obtain ⟨e, he, rfl⟩ := h
  intro h0
  unfold findEntryIdx at h0
  simp only at h0
  obtain ⟨v, hv⟩ : ∃ v, (findKeyValEntries st.static e.kv.key val).1 = some v :=
    findKeyVal_key _ _ _ ⟨e, by simpa using he, rfl⟩
  split at h0
  · rename_i v' hv'
    rw [h0] at hv'
    cases hv'
  · split at h0
    · rw [h0] at hv
      cases hv
    · split at h0
      · cases h0
      · rw [h0] at hv
        cases hv

/-! ### What is stored -/

/-- An operation that stores no `:path`. -/
def StoresNoPath (st : Storage) (op : Op) : Prop :=
  op.opcode = .sclone ∨ op.opcode = .skvsto → ∀ x ∈ opPairs st op, x.1 ≠ b!":path"

theorem makeAll_path {cfg : Config} {st : Storage} {a b c : Int} (h : StorageOk st a b c) (hs : List Hdr) :
    ∀ op ∈ (hs.foldl (makeOne cfg st) {}).etoggl ++ (hs.foldl (makeOne cfg st) {}).sclone ++
      (hs.foldl (makeOne cfg st) {}).eclone ++ (hs.foldl (makeOne cfg st) {}).skvsto, StoresNoPath st op := by
  induction hs using List.reverseRecOn with
  | nil => simp
  | append_singleton hs x ih =>
    rw [List.foldl_append]
    generalize hs.foldl (makeOne cfg st) {} = m at ih ⊢
    simp only [List.foldl_cons, List.foldl_nil]
    have hadd : ∀ new : Op, StoresNoPath st new → ∀ op ∈ m.etoggl ++ m.sclone ++ m.eclone ++ m.skvsto ++ [new], StoresNoPath st op := by
      intro new hnew op hop
      rcases List.mem_append.1 hop with hop | hop
      · exact ih op hop
      · simp only [List.mem_singleton] at hop
        subst hop
        exact hnew
    intro op hop
    unfold makeOne at hop
    split at hop
    · split at hop
      · refine hadd _ ?_ op (by simp only [List.mem_append] at hop ⊢; tauto)
        intro h; rcases h with h | h <;> cases h
      · exact ih op hop
    · rename_i k hf
      split at hop
      · refine hadd _ ?_ op (by simp only [List.mem_append] at hop ⊢; tauto)
        intro h; rcases h with h | h <;> cases h
      · rename_i hne
        refine hadd _ ?_ op (by simp only [List.mem_append] at hop ⊢; tauto)
        intro _ y hy
        have hk : (kvAt st k).1 = x.1 := by
          rcases findEntryIdx_spec h x.1 x.2 with ⟨k', v, r, _⟩ | ⟨k', r, _, hk⟩ | r
          · rw [r] at hf; cases hf
          · rw [r] at hf; cases hf; exact hk
          · rw [r] at hf; cases hf
        simp only [opPairs, List.mem_singleton, Option.getD_some] at hy
        subst hy
        rw [hk]
        exact hne
    · rename_i hf
      refine hadd _ ?_ op (by simp only [List.mem_append] at hop ⊢; tauto)
      intro _ y hy
      simp only [opPairs, List.mem_singleton, Option.getD_some] at hy
      subst hy
      intro hx
      simp only at hx
      exact findEntryIdx_key (path_static h) x.2 (hx ▸ hf)

theorem makeInstructions_path {cfg : Config} {o : Orders} (ho : o.Ok) {s : Codec} (h : CodecOk cfg s) (headers : Dict Str Str)
    (gid : Nat) {gs : Groups} (hgs : makeInstructions cfg o s headers gid = .ok gs) :
    ∀ op ∈ gs.flatMap (·.2), StoresNoPath s.storage op := by
  simp only [makeInstructions, bind, Except.bind] at hgs
  split at hgs
  · cases hgs
  · rename_i r hr
    obtain ⟨hs, done⟩ := r
    simp only at hgs
    have hall := makeAll_path (cfg := cfg) h.storage (o.hset hs)
    have hk : ∃ is : List Int, ((o.hset hs).foldl (makeOne cfg s.storage) {}).etoggl = is.map (toggle .etoggl) := by
      generalize o.hset hs = l
      induction l using List.reverseRecOn with
      | nil => exact ⟨[], rfl⟩
      | append_singleton l x ih =>
        obtain ⟨is, hi⟩ := ih
        rw [List.foldl_append, List.foldl_cons, List.foldl_nil]
        generalize l.foldl (makeOne cfg s.storage) {} = m at hi ⊢
        unfold makeOne
        split
        · split
          · rename_i v _ _
            exact ⟨is ++ [v], by simp [hi, toggle]⟩
          · exact ⟨is, hi⟩
        · split <;> exact ⟨is, hi⟩
        · exact ⟨is, hi⟩
    generalize (o.hset hs).foldl (makeOne cfg s.storage) {} = m at hgs hall hk
    obtain ⟨is, hk⟩ := hk
    obtain ⟨ts', rs', f2, _⟩ := figureOutRanges_spec .etoggl .etrang is
    generalize o.toggl (List.foldl addSet m.stoggls done) = full at hgs
    obtain ⟨ts, rs, f1, _⟩ := figureOutRanges_spec .stoggl .strang full
    have f1' : figureOutRanges (List.map (fun i => ({ opcode := .stoggl, index := some i } : Op)) full) .strang =
      .ok (ts.map (toggle .stoggl), rs.map fun r => range .strang r.1 r.2) := f1
    simp only [hk, f2, f1', pure, Except.pure] at hgs
    cases hgs
    intro op hop
    have hop := ((ho.instr _).flatMap_right (·.2)).subset hop
    simp only [List.flatMap_cons, List.flatMap_nil, List.append_nil, List.nil_append, List.mem_append] at hop
    have hno : op.opcode ≠ .sclone → op.opcode ≠ .skvsto → StoresNoPath s.storage op := by
      intro h1 h2 h3
      rcases h3 with h3 | h3
      · exact absurd h3 h1
      · exact absurd h3 h2
    rcases hop with hop | hop | hop | hop | hop | hop | hop
    · obtain ⟨_, _, rfl⟩ := List.mem_map.1 hop
      exact hno (by simp [toggle]) (by simp [toggle])
    · obtain ⟨_, _, rfl⟩ := List.mem_map.1 hop
      exact hno (by simp [toggle]) (by simp [toggle])
    · exact hall op (by simp [hop])
    · exact hall op (by simp [hop])
    · exact hall op (by simp [hop])
    · obtain ⟨_, _, rfl⟩ := List.mem_map.1 hop
      exact hno (by simp [range]) (by simp [range])
    · obtain ⟨_, _, rfl⟩ := List.mem_map.1 hop
      exact hno (by simp [range]) (by simp [range])

/-- What is stored later comes from the operations. -/
theorem execOps_later (st : Storage) (ops : List Op) : ∀ e e' : Exec, e.storage.static = st.static ∧ e.storage.lru = st.lru →
    (∀ op ∈ ops, OpRuns st op ∧ StoresNoPath st op) → execOps ops e = .ok e' → (∀ kv ∈ e.later, PlainPath (kv.key, kv.val)) →
    ∀ kv ∈ e'.later, PlainPath (kv.key, kv.val) := by
  induction ops with
  | nil => intro e e' _ _ h hl; cases h; exact hl
  | cons op ops ih =>
    intro e e' hs hops hx hl
    obtain ⟨e1, x1, y1, _⟩ := execOp_spec st e op hs (hops op (by simp)).1
    simp only [execOps, bind, Except.bind, x1] at hx
    refine ih e1 e' y1 (fun o ho => hops o (by simp [ho])) hx ?_
    have hno := (hops op (by simp)).2
    have hlook : ∀ j, lookupFromIdx e.storage j = lookupFromIdx st j := by
      intro j
      simp only [lookupFromIdx, hs.1, hs.2]
    have hadd : ∀ new : KV, new.key ≠ b!":path" → ∀ kv ∈ e.later ++ [new], PlainPath (kv.key, kv.val) := by
      intro new hnew kv hkv
      rcases List.mem_append.1 hkv with hkv | hkv
      · exact hl kv hkv
      · simp only [List.mem_singleton] at hkv
        subst hkv
        exact fun h => absurd h hnew
    obtain ⟨oc, i, sx, k, v⟩ := op
    cases oc <;> simp only [execOp, bind, Except.bind] at x1
    case sclone =>
      have hno := hno (.inl rfl)
      cases i with
      | none => simp only [Op.idx] at x1; cases x1
      | some i =>
        cases v with
        | none => simp only [Op.idx, Op.theVal] at x1; cases x1
        | some v =>
          simp only [Op.idx, Op.theVal, hlook] at x1
          split at x1
          · cases x1
          · rename_i en hen
            cases x1
            refine hadd _ ?_
            have := hno ((kvAt st i).1, v) (by simp [opPairs])
            rw [kvAt_ok hen] at this
            exact this
    case skvsto =>
      have hno := hno (.inr rfl)
      cases k with
      | none => simp only [Op.theKey] at x1; cases x1
      | some k =>
        cases v with
        | none => simp only [Op.theKey, Op.theVal] at x1; cases x1
        | some v =>
          simp only [Op.theKey, Op.theVal] at x1
          cases x1
          exact hadd _ (hno (k, v) (by simp [opPairs]))
    all_goals
      repeat' split at x1
      all_goals first | (cases x1; done) | (cases x1; exact hl)

theorem storeKV_path {cfg : Config} {s : Codec} (h : CodecOk cfg s) (hb : cfg.maxEntries ≤ cfg.maxIndex - 65) {kv : KV}
    (hp : PathOk s.storage) (hk : PlainPath (kv.key, kv.val)) {s' : Codec} {r : Option Int} (hx : storeKV cfg s kv = .ok (s', r)) :
    PathOk s'.storage := by
  generalize hr : (if cfg.refcntVals then kvShare s.storage.counts kv else kvShareKey s.storage.counts kv kv.val) = q at *
  obtain ⟨st', ps, i, e, hst, hstatic, keep, hring, hcase⟩ := insertVal_spec (h.storage.counts q.1) hb q.2
  simp only [storeKV, hr, bind, Except.bind, e, pure, Except.pure] at hx
  cases hx
  have hq : q.2.key = kv.key ∧ q.2.val = kv.val := by
    rw [← hr]
    split <;> exact ⟨rfl, rfl⟩
  have hkeep : ∀ e ∈ keep, PlainPath (e.kv.key, e.kv.val) := fun e he => hp e (by
    have : e ∈ ps ++ keep := List.mem_append.2 (.inr he)
    rw [← hring] at this
    exact this)
  intro e he
  simp only at he
  rcases hcase with ⟨_, h2⟩ | ⟨_, h2⟩
  · rw [h2] at he
    exact hkeep e he
  · rw [h2] at he
    rcases List.mem_append.1 he with he | he
    · exact hkeep e he
    · simp only [List.mem_singleton] at he
      subst he
      rw [hq.1, hq.2]
      exact hk

theorem changeGroup_store (s : Codec) (gid : Nat) (f : List Int → List Int) : (changeGroup s gid f).storage = s.storage := by
  unfold changeGroup
  split <;> rfl

theorem addIdx_store (s : Codec) (gid : Nat) (r : Option Int) : (addIdx s gid r).storage = s.storage := by
  cases r with
  | none => rfl
  | some i => exact changeGroup_store _ _ _

theorem storeLater_path {cfg : Config} (hb : cfg.maxEntries ≤ cfg.maxIndex - 65) (gid : Nat) (kvs : List KV) : ∀ s s' : Codec,
    CodecOk cfg s → PathOk s.storage → (∀ kv ∈ kvs, PlainPath (kv.key, kv.val)) → storeLater cfg gid kvs s = .ok s' →
    PathOk s'.storage := by
  induction kvs with
  | nil => intro s s' _ hp _ h; cases h; exact hp
  | cons kv kvs ih =>
    intro s s' h hp hk hx
    obtain ⟨s1, r, e1, h1, hr⟩ := storeKV_spec h hb kv
    have p1 := storeKV_path h hb hp (hk kv (by simp)) e1
    simp only [storeLater, bind, Except.bind, e1] at hx
    refine ih _ _ ?_ ?_ (fun kv hkv => hk kv (by simp [hkv])) hx
    · split
      · exact h1.addIdx gid r hr
      · exact h1
    · split
      · rw [addIdx_store]; exact p1
      · exact p1

theorem adjustLater_path {cfg : Config} (hb : cfg.maxEntries ≤ cfg.maxIndex - 65) (gid : Nat) (kvs : List (KV × Int)) :
    ∀ s s' : Codec, CodecOk cfg s → PathOk s.storage → (∀ kv ∈ kvs, PlainPath (kv.1.key, kv.1.val)) →
    adjustLater cfg gid kvs s = .ok s' → PathOk s'.storage := by
  induction kvs with
  | nil => intro s s' _ hp _ h; cases h; exact hp
  | cons kv kvs ih =>
    intro s s' h hp hk hx
    obtain ⟨kv, old⟩ := kv
    have h0 := (h.change gid (fun hg => hg.filter (· ≠ old)) fun l hn hl =>
      ⟨hn.filter _, fun i hi => hl i (List.mem_of_mem_filter hi)⟩).1
    obtain ⟨s1, r, e1, h1, hr⟩ := storeKV_spec h0 hb kv
    have p1 := storeKV_path h0 hb (by rw [changeGroup_store]; exact hp) (hk (kv, old) (by simp)) e1
    simp only [adjustLater, bind, Except.bind, e1] at hx
    refine ih _ _ (h1.addIdx gid r hr) ?_ (fun kv hkv => hk kv (by simp [hkv])) hx
    rw [addIdx_store]
    exact p1

theorem lookupAll_path {st : Storage} {a b m : Int} (h : StorageOk st a b m) (hp : PathOk st) (is : List Int) :
    ∀ l, lookupAll st is = .ok l → ∀ kv ∈ l, PlainPath (kv.1.key, kv.1.val) := by
  induction is with
  | nil => intro l hl; cases hl; simp
  | cons i is ih =>
    intro l hl
    simp only [lookupAll, bind, Except.bind] at hl
    split at hl
    · cases hl
    · rename_i e he
      split at hl
      · cases hl
      · rename_i es hes
        cases hl
        intro kv hkv
        rcases List.mem_cons.1 hkv with rfl | hkv
        · unfold lookupFromIdx at he
          split at he
          · exact static_path h ((lookup_iff h.staticRing _ _).1 he).1
          · exact hp e ((lookup_iff h.ring _ _).1 he).1
        · exact ih _ hes kv hkv

/-- Executing operations that store no `:path` stores none. -/
theorem execute_path {cfg : Config} (hb : cfg.maxEntries ≤ cfg.maxIndex - 65) {s : Codec} (h : CodecOk cfg s) (hp : PathOk s.storage)
    {gid : Nat} {ops hops : List Op} {ord : List Int → List Int} {s' : Codec} {out : Dict Str Str}
    (ht : lruToHg cfg s.storage ops = .ok hops) (hr : Runnable s.storage hops) (hno : ∀ op ∈ hops, StoresNoPath s.storage op)
    (hx : execute cfg ord s ops gid = .ok (s', out)) : PathOk s'.storage := by
  have hm := h.findOrMake gid
  have hst := findOrMake_storage s gid
  have hgr := findOrMake_group s gid
  unfold execute at hx
  generalize findOrMake s gid = f at hm hst hgr hx
  obtain ⟨e, x, ⟨y1, y2⟩, a, b, c⟩ := execOps_spec s.storage hops { storage := s.storage } ⟨rfl, rfl⟩ hr.runs
  have a : e.stoggles = hops.flatMap opStog := a.trans (toggle_append (a := []) hr.snodup)
  have hlater := execOps_later s.storage hops _ e ⟨rfl, rfl⟩ (fun op hop => ⟨hr.runs op hop, hno op hop⟩) x (by simp)
  have hes : e.storage = { s.storage with counts := e.storage.counts } := by
    obtain ⟨st, _⟩ := e
    cases st
    simp only at y1 y2
    subst y1 y2
    rfl
  obtain ⟨g1, g2⟩ := h.group gid
  have hhg : ∀ i ∈ symDiff (s.group gid) (hops.flatMap opStog), Live s.storage i := by
    intro i hi
    rcases (mem_symDiff hr.snodup).1 hi with ⟨hi, _⟩ | ⟨_, hi⟩
    · exact g2 i hi
    · exact hr.slive i hi
  have hhn : (symDiff (s.group gid) (hops.flatMap opStog)).Nodup := nodup_symDiff g1
  have hso : StorageOk e.storage cfg.maxBytes cfg.maxEntries cfg.maxIndex := by
    rw [hes]
    exact h.storage.counts _
  have hpe : PathOk e.storage := by
    intro en hen
    rw [y2] at hen
    exact hp en hen
  have hlive : ∀ i, Live e.storage i ↔ Live s.storage i := by
    intro i
    rw [hes]
    exact Iff.rfl
  have hc1 : CodecOk cfg { storage := e.storage, groups := f.groups.set gid (symDiff (s.group gid) (hops.flatMap opStog)) } := by
    have hm' : CodecOk cfg { storage := e.storage, groups := f.groups } := by
      refine ⟨hso, hm.wf, fun g hg => ⟨(hm.groups g hg).1, fun i hi => (hlive i).2 ?_⟩⟩
      rw [← hst]
      exact (hm.groups g hg).2 i hi
    exact hm'.setGroup gid _ hhn fun i hi => (hlive i).2 (hhg i hi)
  obtain ⟨s1, e1, h1⟩ := storeLater_spec hb gid e.later _ hc1
  have p1 := storeLater_path hb gid e.later _ _ hc1 hpe hlater e1
  simp only [hst, hgr, ht, x, a, bind, Except.bind] at hx
  split at hx
  · cases hx
  · split at hx
    · cases hx
    · rename_i adj hadj
      simp only [e1] at hx
      split at hx
      · cases hx
      · rename_i s2 e2
        cases hx
        refine adjustLater_path hb gid adj _ _ h1 p1 ?_ e2
        unfold adjustList at hadj
        split at hadj
        · exact lookupAll_path hso hpe _ _ hadj
        · cases hadj
          simp

theorem message_path {cfg : Config} (hc : ConfigOk cfg) {o : Orders} (ho : o.Ok) {s : Codec} (h : CodecOk cfg s)
    (hp : PathOk s.storage) (headers : Dict Str Str)
    (hb : ∀ kv ∈ headers, (∀ c ∈ kv.1, c < 256) ∧ ∀ c ∈ kv.2, c < 256) (gid : Nat) {s' : Codec} {gs : Groups}
    (hgs : makeOperations cfg o s headers gid = .ok (s', gs)) : PathOk s'.storage := by
  have hm := h.findOrMake gid
  have hst := findOrMake_storage s gid
  obtain ⟨gs0, e1, hgood, hrun, _⟩ := makeInstructions_spec hc.high ho hm headers (headersSet_bytes hb) gid
  have hno := makeInstructions_path ho hm headers gid e1
  rw [hst] at hgood hrun hno
  obtain ⟨gs', e2, hg2, hback⟩ := hgToLru_spec hc h.storage gs0 hgood
  simp only [makeOperations, bind, Except.bind, e1, hst, e2, execute_make, pure, Except.pure] at hgs
  split at hgs
  · cases hgs
  · rename_i r hr
    obtain ⟨s1, out⟩ := r
    cases hgs
    exact execute_path hc.entries h hp hback hrun hno hr

end Verif.Delta2
