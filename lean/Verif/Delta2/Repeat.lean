import Verif.Delta2.SessionLemmas
/-
Messages that are already there: when delta2 sends the empty frame, and what repeating a message does.
-/
namespace Verif.Delta2
open Verif Verif.Bits Verif.Bits.Spec

/-! ### The loop over the header group -/

/-- The loop splits the group into what is kept and what is done, and the headers into those of the kept indices and the rest. -/
theorem hgLoop_split {st : Storage} {a b m : Int} (h : StorageOk st a b m) (l : List Int) : ∀ (hs : List Hdr) (done : List Int),
    (∀ i ∈ l, Live st i) → (l ++ done).Nodup → hs.Nodup → ∀ hs' done', hgLoop st l hs done = .ok (hs', done') →
    ∃ kept : List Int, (kept ++ done').Perm (l ++ done) ∧ (kept.map (kvAt st) ++ hs').Perm hs := by
  induction l with
  | nil =>
    intro hs done _ _ _ hs' done' e
    cases e
    exact ⟨[], .refl _, .refl _⟩
  | cons i l ih =>
    intro hs done hl hn hh hs' done' e
    obtain ⟨en, he⟩ := lookup_live h (hl i (by simp))
    have hk := kvAt_ok he
    rw [List.cons_append, List.nodup_cons] at hn
    simp only [hgLoop, bind, Except.bind, he, ← hk] at e
    split at e
    · rename_i hm
      obtain ⟨kept, k1, k2⟩ := ih _ _ (fun j hj => hl j (by simp [hj])) hn.2 (hh.filter _) _ _ e
      refine ⟨i :: kept, by simpa using k1, ?_⟩
      rw [List.map_cons, List.cons_append]
      refine (k2.cons _).trans ?_
      have : hs.filter (· ≠ kvAt st i) = hs.erase (kvAt st i) := by
        rw [hh.erase_eq_filter]
        congr 1
        funext x
        by_cases hx : x = kvAt st i <;> simp [hx]
      rw [this]
      exact (List.perm_cons_erase hm).symm
    · have hid : i ∉ done := fun hd => hn.1 (List.mem_append.2 (.inr hd))
      have hn' : (l ++ addSet done i).Nodup := by
        rw [addSet, if_neg hid]
        have := hn.2
        rw [List.nodup_append] at this ⊢
        refine ⟨this.1, ?_, ?_⟩
        · rw [List.nodup_append]
          exact ⟨this.2.1, by simp, fun x hx y hy => by simp at hy; subst hy; exact fun h => hid (h ▸ hx)⟩
        · intro x hx y hy
          rcases List.mem_append.1 hy with hy | hy
          · exact this.2.2 x hx y hy
          · simp only [List.mem_singleton] at hy
            subst hy
            exact fun h => hn.1 (List.mem_append.2 (.inl (h ▸ hx)))
      obtain ⟨kept, k1, k2⟩ := ih _ _ (fun j hj => hl j (by simp [hj])) hn' hh _ _ e
      refine ⟨kept, k1.trans ?_, k2⟩
      rw [addSet, if_neg hid, ← List.append_assoc, List.cons_append]
      exact (List.perm_append_singleton i (l ++ done))

/-! ### The empty message -/

theorem figure_nil {oc new : Opcode} {is : List Int} {ts : List Op} {rs : List Op}
    (h : figureOutRanges (is.map (toggle oc)) new = .ok (ts, rs)) : (ts = [] ∧ rs = []) ↔ is = [] := by
  obtain ⟨ts', rs', e, _, hp, _⟩ := figureOutRanges_spec oc new is
  rw [h] at e
  cases e
  constructor
  · rintro ⟨h1, h2⟩
    rw [List.map_eq_nil_iff] at h1 h2
    subst h1 h2
    simpa using hp
  · rintro rfl
    have := hp.eq_nil
    simp only [List.append_eq_nil_iff] at this
    refine ⟨by rw [this.1]; rfl, ?_⟩
    rename_i hr _
    cases rs' with
    | nil => rfl
    | cons r rs' =>
      have h2 := this.2
      have h1 := hr r (by simp)
      simp only [List.flatMap_cons, List.append_eq_nil_iff] at h2
      have : (interval r.1 r.2).length = 0 := by rw [h2.1]; rfl
      simp only [interval, List.length_map, List.length_range] at this
      omega

/-- No instructions exactly if the group has the headers of the message, each once. -/
theorem makeInstructions_nil {cfg : Config} {o : Orders} (ho : o.Ok) {s : Codec} (h : CodecOk cfg s) (headers : Dict Str Str)
    (gid : Nat) {gs : Groups} (hgs : makeInstructions cfg o s headers gid = .ok gs) :
    gs.flatMap (·.2) = [] ↔ ((s.group gid).map (kvAt s.storage)).Perm (headersSet headers) := by
  obtain ⟨g1, g2⟩ := h.group gid
  have hperm := ho.hg (s.group gid)
  obtain ⟨hs, done, e1, hsn, hdn, hd, hsub, hrest, hkeep, hgone⟩ := hgLoop_spec h.storage (o.hg (s.group gid)) (headersSet headers) []
    (fun i hi => g2 i (hperm.subset hi)) (by simpa using hperm.nodup_iff.2 g1) (nodup_headersSet headers)
  obtain ⟨kept, k1, k2⟩ := hgLoop_split h.storage (o.hg (s.group gid)) (headersSet headers) []
    (fun i hi => g2 i (hperm.subset hi)) (by simpa using hperm.nodup_iff.2 g1) (nodup_headersSet headers) _ _ e1
  rw [List.append_nil] at k1
  have k1 := k1.trans hperm
  have hpo := ho.hset hs
  obtain ⟨is, hm⟩ := makeAll_spec (cfg := cfg) h.storage (o.hset hs) (hpo.nodup_iff.2 hsn)
  generalize hM : (o.hset hs).foldl (makeOne cfg s.storage) {} = m at hm
  have hfm : ∀ i, i ∈ done.foldl addSet m.stoggls ↔ i ∈ m.stoggls ∨ i ∈ done := fun i => mem_addAll
  have hpt := ho.toggl (done.foldl addSet m.stoggls)
  generalize hF : done.foldl addSet m.stoggls = full at hfm hpt
  obtain ⟨ts, rs, f1, _⟩ := figureOutRanges_spec .stoggl .strang (o.toggl full)
  obtain ⟨ts', rs', f2, _⟩ := figureOutRanges_spec .etoggl .etrang is
  have n1 := figure_nil f1
  have n2 := figure_nil f2
  generalize ts.map (toggle .stoggl) = T at f1 n1
  generalize (rs.map fun r : Int × Int => range .strang r.1 r.2) = R at f1 n1
  generalize ts'.map (toggle .etoggl) = T' at f2 n2
  generalize (rs'.map fun r : Int × Int => range .etrang r.1 r.2) = R' at f2 n2
  have f1' : figureOutRanges (List.map (fun i => ({ opcode := .stoggl, index := some i } : Op)) (o.toggl full)) .strang = .ok (T, R) := f1
  simp only [makeInstructions, bind, Except.bind, e1, hM, hF, hm.etoggl, f2, f1', pure, Except.pure] at hgs
  cases hgs
  rw [show ∀ base : Groups, ((o.instr base).flatMap (·.2) = [] ↔ base.flatMap (·.2) = []) from fun base => by
    have := (ho.instr base).flatMap_right (·.2)
    exact ⟨fun h => by rw [h] at this; exact this.symm.eq_nil, fun h => by rw [h] at this; exact this.eq_nil⟩]
  simp only [List.flatMap_cons, List.flatMap_nil, List.append_nil, List.nil_append, List.append_eq_nil_iff]
  have hfull : o.toggl full = [] ↔ full = [] :=
    ⟨fun h => by rw [h] at hpt; exact hpt.symm.eq_nil, fun h => by rw [h] at hpt ⊢; exact hpt.eq_nil⟩
  constructor
  · rintro ⟨a1, a2, a3, a4, a5, a6, a7⟩
    have b1 := hfull.1 (n1.1 ⟨a1, a7⟩)
    have b2 := n2.1 ⟨a2, a6⟩
    have hd0 : done = [] := List.eq_nil_iff_forall_not_mem.2 fun i hi => by
      have := (hfm i).2 (.inr hi)
      rw [b1] at this
      simp at this
    have hs0 : hs = [] := List.eq_nil_iff_forall_not_mem.2 fun x hx => by
      rcases hm.cover x (hpo.mem_iff.2 hx) with ⟨i, hi, _⟩ | ⟨op, hop, _⟩
      · rcases List.mem_append.1 hi with hi | hi
        · have := (hfm i).2 (.inl hi)
          rw [b1] at this
          simp at this
        · rw [b2] at hi
          simp at hi
      · rw [a3, a4, a5] at hop
        simp at hop
    subst hd0 hs0
    simp only [List.append_nil] at k1 k2
    exact (k1.map _).symm.trans k2
  · intro hp
    have hl : kept.length + done.length = kept.length + hs.length := by
      have h1 := k1.length_eq
      have h2 := k2.length_eq
      have h3 := hp.length_eq
      simp only [List.length_append, List.length_map] at h1 h2 h3
      omega
    have hs0 : hs = [] := List.eq_nil_iff_forall_not_mem.2 fun x hx => by
      obtain ⟨i, hi, hix⟩ := List.mem_map.1 (hp.mem_iff.2 (hsub x hx))
      exact hgone i (hperm.mem_iff.2 hi) (hix ▸ hx)
    subst hs0
    have hd0 : done = [] := by simpa using hl
    subst hd0
    have h0 : o.hset [] = [] := hpo.eq_nil
    rw [h0] at hM
    subst hM
    have hi0 : is = [] := by
      have := hm.etoggl
      simpa using this.symm
    have hf0 : full = [] := hF.symm
    obtain ⟨a1, a7⟩ := n1.2 (hfull.2 hf0)
    obtain ⟨a2, a6⟩ := n2.2 hi0
    exact ⟨a1, a2, rfl, rfl, rfl, a6, a7⟩

/-! ### The empty frame -/

theorem outputAll_nil (p : Packing) (gs : Groups) (h : gs.flatMap (·.2) = []) (b : BitBucket) : outputAll p gs b = .ok b := by
  induction gs with
  | nil => rfl
  | cons g gs ih =>
    obtain ⟨oc, ops⟩ := g
    simp only [List.flatMap_cons, List.append_eq_nil_iff] at h
    obtain ⟨rfl, h⟩ := h
    simp only [outputAll, bind, Except.bind, outputOps, List.length_nil, gt_iff_lt, Nat.lt_irrefl, if_false, ih h]

theorem pack_headE {gid : Nat} (h : gid < 256) : pack (headE 0 1 0xffff gid 8) = [0, 0, 8, 1, 128, 0, 255, 255, gid] := by
  exact (by decide +kernel : ∀ gid < 256, pack (headE 0 1 0xffff gid 8) = [0, 0, 8, 1, 128, 0, 255, 255, gid]) gid h

/-- The frame of no operations. -/
theorem wire_nil {p : Packing} {gs : Groups} (h : gs.flatMap (·.2) = []) {gid : Nat} (hg : gid < 256) :
    opsToRealOps p gs gid = .ok [0, 0, 8, 1, 128, 0, 255, 255, gid] := by
  obtain ⟨b2, e2, w2⟩ := boilerplate_spec wrote_empty (len := 0) (flags := 0) (streamId := 0) (groupId := gid)
    (frameType := 0) (by omega) (by omega) (by omega) (by omega) (by omega)
  have n2 : bytesOfStorage b2 = 9 := by
    have := (wrote_out w2).2
    simp only [List.nil_append, headE_len] at this
    rw [bytesOfStorage, this]
    rfl
  obtain ⟨b1, e1, w1⟩ := boilerplate_spec wrote_empty (len := 0) (flags := 1) (streamId := 0xffff) (groupId := gid)
    (frameType := 8) (by omega) (by omega) (by omega) (by omega) (by omega)
  rw [List.nil_append] at w1
  obtain ⟨o1, m1⟩ := wrote_out w1
  have hf : frameLoop 0xffff gid 65527 1 BitBucket.empty [] 0 = .ok b1 := by
    simp only [frameLoop, bind, Except.bind]
    simp only [show min 0 65527 = 0 from rfl, Nat.le_refl, if_true, e1]
    rfl
  obtain ⟨b4, e4, w4⟩ := wrote_store wrote_empty (headE 0 1 0xffff gid 8)
  rw [List.nil_append] at w4
  obtain ⟨o4, n4⟩ := wrote_out w4
  have ser : serialize p gs 0xffff gid = .ok (pack (headE 0 1 0xffff gid 8), ((headE 0 1 0xffff gid 8).length : Int)) := by
    simp only [serialize, bind, Except.bind, outputAll_nil p gs h, e2, n2, pure, Except.pure]
    simp only [show (2 : Nat) ^ 16 - (9 : Int).toNat = 65527 from rfl,
      show ((numBits BitBucket.empty + 7) / 8).toNat = 0 from rfl, show BitBucket.empty.output = [] from rfl, hf, o1, m1]
  rw [← pack_headE hg]
  simp only [opsToRealOps, bind, Except.bind, ser, Int.toNat_natCast, e4, pure, Except.pure, o4]

/-- Operations make a frame longer. -/
theorem wire_more {p : Packing} {codes : List (List Bool)} (hk : StrOk p.huff codes) {gs : Groups} (h : GroupsOk p.ints gs)
    (hne : gs.flatMap (·.2) ≠ []) {gid : Nat} (hg : gid < 256) {bytes : Str} (hb : opsToRealOps p gs gid = .ok bytes) :
    10 < bytes.length := by
  obtain ⟨bytes', e, _, hl, _⟩ := wire_spec hk gs h gid hg
  rw [hb] at e
  cases e
  have hok := blocks_ok h
  have hflat := blocks_flat gs
  cases hbl : blocks gs with
  | nil =>
    rw [hbl] at hflat
    exact absurd hflat.symm hne
  | cons blk bs =>
    rw [hbl] at hl hok
    have := blockE_len hk (hok blk (by simp)) 0
    simp only [blocksE, Emit.seq, List.length_append] at hl
    omega

/-! ### Executing toggles -/

theorem translateOps_length (f : Int → Py Int) (ops : List Op) : ∀ ops', translateOps f ops = .ok ops' → ops'.length = ops.length := by
  induction ops with
  | nil => intro ops' h; cases h; rfl
  | cons op ops ih =>
    intro ops' h
    simp only [translateOps, bind, Except.bind] at h
    split at h
    · cases h
    · split at h
      · cases h
      · rename_i r hr
        cases h
        simp [ih _ hr]

theorem lruToHg_nil {cfg : Config} {st : Storage} {ops ops' : List Op} (h : lruToHg cfg st ops = .ok ops') : ops = [] ↔ ops' = [] := by
  unfold lruToHg at h
  split at h
  · have := translateOps_length _ _ _ h
    rw [← List.length_eq_zero_iff, ← List.length_eq_zero_iff, this]
  · cases h
    rfl

/-- Operations that only toggle the group leave the storage alone. -/
theorem execOps_toggles (ops : List Op) : ∀ e e' : Exec, (∀ op ∈ ops, op.opcode = .stoggl ∨ op.opcode = .strang) →
    execOps ops e = .ok e' → e'.storage = e.storage ∧ e'.later = e.later ∧ e'.etoggles = e.etoggles := by
  induction ops with
  | nil => intro e e' _ h; cases h; exact ⟨rfl, rfl, rfl⟩
  | cons op ops ih =>
    intro e e' ho h
    simp only [execOps, bind, Except.bind] at h
    split at h
    · cases h
    · rename_i e1 he1
      obtain ⟨a, b, c⟩ := ih e1 e' (fun o h => ho o (by simp [h])) h
      have : e1.storage = e.storage ∧ e1.later = e.later ∧ e1.etoggles = e.etoggles := by
        rcases ho op (by simp) with h1 | h1
        · simp only [execOp, h1, bind, Except.bind] at he1
          split at he1
          · cases he1
          · cases he1
            exact ⟨rfl, rfl, rfl⟩
        · simp only [execOp, h1, bind, Except.bind] at he1
          repeat' split at he1
          all_goals first | (cases he1; done) | (cases he1; exact ⟨rfl, rfl, rfl⟩)
      exact ⟨a.trans this.1, b.trans this.2.1, c.trans this.2.2⟩

/-- What such operations do to a codec. -/
theorem execute_toggles {cfg : Config} (hadj : cfg.hgAdjust = false) {s : Codec} {gid : Nat} {ops hops : List Op}
    {ord : List Int → List Int} {s' : Codec} {out : Dict Str Str}
    (ht : lruToHg cfg s.storage ops = .ok hops) (hr : Runnable s.storage hops)
    (htog : ∀ op ∈ hops, op.opcode = .stoggl ∨ op.opcode = .strang) (h : execute cfg ord s ops gid = .ok (s', out)) :
    s'.storage = s.storage ∧ s'.groups = (findOrMake s gid).groups.set gid (symDiff (s.group gid) (hops.flatMap opStog)) := by
  have hst := findOrMake_storage s gid
  have hgr := findOrMake_group s gid
  unfold execute at h
  generalize findOrMake s gid = f at hst hgr h ⊢
  obtain ⟨e, x, ⟨y1, y2⟩, a, b, c⟩ := execOps_spec s.storage hops { storage := s.storage } ⟨rfl, rfl⟩ hr.runs
  have a : e.stoggles = hops.flatMap opStog := a.trans (toggle_append (a := []) hr.snodup)
  obtain ⟨z1, z2, z3⟩ := execOps_toggles hops _ _ htog x
  simp only at z1 z2
  simp only [hst, hgr, ht, x, a, bind, Except.bind, adjustList, hadj, z2, z1] at h
  split at h
  · cases h
  · simp only [Bool.false_eq_true, if_false, storeLater, adjustLater, pure, Except.pure] at h
    cases h
    exact ⟨rfl, rfl⟩

/-! ### Headers that are in the table -/

/-- A pair of the static or of the dynamic table. -/
def InTable (st : Storage) (x : Hdr) : Prop := ∃ e ∈ st.static.ring ++ st.lru.ring, (e.kv.key, e.kv.val) = x

theorem findVal_finds (key val : Str) (ke : Entry) (l : List Entry) (h : ∃ e ∈ l, e.kv.key = key ∧ e.kv.val = val) :
    ∃ v, (findVal key val ke l).2 = some v := by
  induction l with
  | nil => simp at h
  | cons e es ih =>
    rw [findVal]
    split
    · exact ⟨_, rfl⟩
    · rename_i hne
      obtain ⟨e', he', hk⟩ := h
      rcases List.mem_cons.1 he' with rfl | he'
      · exact absurd hk hne
      · exact ih ⟨e', he', hk⟩

theorem findKeyVal_finds (key val : Str) (l : List Entry) (h : ∃ e ∈ l, e.kv.key = key ∧ e.kv.val = val) :
    ∃ v, (findKeyVal key val l).2 = some v := by
  induction l with
  | nil => simp at h
  | cons e es ih =>
    obtain ⟨e', he', hk⟩ := h
    rw [findKeyVal]
    split
    · split
      · exact ⟨_, rfl⟩
      · rename_i h1 h2
        rcases List.mem_cons.1 he' with rfl | he'
        · exact absurd hk.2 h2
        · exact findVal_finds _ _ _ _ ⟨e', he', hk⟩
    · rename_i h1
      rcases List.mem_cons.1 he' with rfl | he'
      · exact absurd hk.1 h1
      · exact ih ⟨e', he', hk⟩

theorem findEntryIdx_finds {st : Storage} {x : Hdr} (h : InTable st x) : ∃ v, (findEntryIdx st x.1 x.2).2 = some v := by
  obtain ⟨e, he, rfl⟩ := h
  unfold findEntryIdx
  rcases List.mem_append.1 he with he | he
  · have : ∃ v, (findKeyValEntries st.static e.kv.key e.kv.val).2 = some v :=
      findKeyVal_finds _ _ _ ⟨e, by simpa using he, rfl, rfl⟩
    simp only
    split
    · rename_i v hv
      exact ⟨v, hv⟩
    · split
      · exact this
      · split
        · exact this
        · exact this
  · obtain ⟨v, hv⟩ : ∃ v, (findKeyValEntries st.lru e.kv.key e.kv.val).2 = some v :=
      findKeyVal_finds _ _ _ ⟨e, by simpa using he, rfl, rfl⟩
    simp only [hv]
    exact ⟨v, rfl⟩

theorem inTable_of_live {st : Storage} {a b m : Int} (h : StorageOk st a b m) {i : Int} (hl : Live st i) : InTable st (kvAt st i) := by
  obtain ⟨e, he⟩ := lookup_live h hl
  rw [kvAt_ok he]
  refine ⟨e, ?_, rfl⟩
  rw [List.mem_append]
  unfold lookupFromIdx at he
  split at he
  · exact .inl ((lookup_iff h.staticRing _ _).1 he).1
  · exact .inr ((lookup_iff h.ring _ _).1 he).1

/-- Known headers are only toggled. -/
theorem makeAll_known {cfg : Config} (he : cfg.onlyEtoggles = false) {st : Storage} {a b c : Int} (h : StorageOk st a b c)
    (hs : List Hdr) (hn : hs.Nodup) (hk : ∀ x ∈ hs, InTable st x) :
    ∃ l : List Int, hs.foldl (makeOne cfg st) {} = { stoggls := l } ∧ l.map (kvAt st) = hs ∧ ∀ i ∈ l, Live st i := by
  induction hs using List.reverseRecOn with
  | nil => exact ⟨[], rfl, rfl, by simp⟩
  | append_singleton hs x ih =>
    rw [List.nodup_append] at hn
    obtain ⟨l, e, hl, hlive⟩ := ih hn.1 (fun y hy => hk y (by simp [hy]))
    obtain ⟨v, hv⟩ := findEntryIdx_finds (hk x (by simp))
    obtain ⟨k, v', hf, hvl, hvk⟩ : ∃ k v', findEntryIdx st x.1 x.2 = (k, some v') ∧ Live st v' ∧ kvAt st v' = (x.1, x.2) := by
      rcases findEntryIdx_spec h x.1 x.2 with r | ⟨k, r, _⟩ | r
      · exact r
      · rw [r] at hv; cases hv
      · rw [r] at hv; cases hv
    have hnew : v' ∉ l := fun hm => by
      have : kvAt st v' ∈ hs := hl ▸ List.mem_map.2 ⟨v', hm, rfl⟩
      rw [hvk] at this
      exact hn.2.2 x this x (by simp) rfl
    refine ⟨l ++ [v'], ?_, by simp [hl, hvk], ?_⟩
    · rw [List.foldl_append, e]
      simp only [List.foldl_cons, List.foldl_nil, makeOne, hf, he, Bool.false_eq_true, if_false, addSet, if_neg hnew]
    · intro i hi
      rcases List.mem_append.1 hi with hi | hi
      · exact hlive i hi
      · simp only [List.mem_singleton] at hi
        subst hi
        exact hvl

/-- The instructions for known headers toggle what is missing and what is too much. -/
theorem makeInstructions_known {cfg : Config} (he : cfg.onlyEtoggles = false) {o : Orders} (ho : o.Ok) {s : Codec}
    (h : CodecOk cfg s) (headers : Dict Str Str) (hk : ∀ x ∈ headersSet headers, InTable s.storage x) (gid : Nat) {gs : Groups}
    (hgs : makeInstructions cfg o s headers gid = .ok gs) :
    (∀ op ∈ gs.flatMap (·.2), op.opcode = .stoggl ∨ op.opcode = .strang) ∧
      ((gs.flatMap (·.2)).flatMap opStog).Nodup ∧
      ((symDiff (s.group gid) ((gs.flatMap (·.2)).flatMap opStog)).map (kvAt s.storage)).Perm (headersSet headers) := by
  obtain ⟨g1, g2⟩ := h.group gid
  have hperm := ho.hg (s.group gid)
  obtain ⟨hs, done, e1, hsn, hdn, hd, hsub, hrest, hkeep, hgone⟩ := hgLoop_spec h.storage (o.hg (s.group gid)) (headersSet headers) []
    (fun i hi => g2 i (hperm.subset hi)) (by simpa using hperm.nodup_iff.2 g1) (nodup_headersSet headers)
  obtain ⟨kept, k1, k2⟩ := hgLoop_split h.storage (o.hg (s.group gid)) (headersSet headers) []
    (fun i hi => g2 i (hperm.subset hi)) (by simpa using hperm.nodup_iff.2 g1) (nodup_headersSet headers) _ _ e1
  rw [List.append_nil] at k1
  have k1 := k1.trans hperm
  have hpo := ho.hset hs
  obtain ⟨l, hM, hlk, hll⟩ := makeAll_known he h.storage (o.hset hs) (hpo.nodup_iff.2 hsn) (fun x hx => hk x (hsub x (hpo.subset hx)))
  have hln : l.Nodup := by
    have := hpo.nodup_iff.2 hsn
    rw [← hlk] at this
    exact this.of_map _
  have hfm : ∀ i, i ∈ done.foldl addSet l ↔ i ∈ l ∨ i ∈ done := fun i => mem_addAll
  have hfn : (done.foldl addSet l).Nodup := nodup_addAll hln
  have hpt := ho.toggl (done.foldl addSet l)
  generalize hF : done.foldl addSet l = full at hfm hpt hfn
  obtain ⟨ts, rs, f1, _, fp, _⟩ := figureOutRanges_spec .stoggl .strang (o.toggl full)
  have f1' : figureOutRanges (List.map (fun i => ({ opcode := .stoggl, index := some i } : Op)) (o.toggl full)) .strang =
      .ok (ts.map (toggle .stoggl), rs.map fun r => range .strang r.1 r.2) := f1
  have f2 : figureOutRanges [] .etrang = .ok ([], []) := rfl
  simp only [makeInstructions, bind, Except.bind, e1, hM, hF, f2, f1', pure, Except.pure] at hgs
  cases hgs
  generalize hB : ([(.stoggl, ts.map (toggle .stoggl)), (.etoggl, []), (.sclone, []), (.eclone, []),
    (.skvsto, []), (.ekvsto, []), (.etrang, []), (.strang, rs.map fun r => range .strang r.1 r.2)] : Groups) = base
  have hops : ((o.instr base).flatMap (·.2)).Perm (base.flatMap (·.2)) := (ho.instr base).flatMap_right _
  have hbops : base.flatMap (·.2) = ts.map (toggle .stoggl) ++ rs.map fun r => range .strang r.1 r.2 := by
    rw [← hB]
    simp [List.flatMap_cons]
  have hS : ((o.instr base).flatMap (·.2)).flatMap opStog |>.Perm full := by
    refine (hops.flatMap_right opStog).trans ?_
    rw [hbops, List.flatMap_append, flatMap_toggles .stoggl opStog (fun _ => rfl), flatMap_ranges .strang opStog (fun _ _ => rfl)]
    exact fp.trans hpt
  have hSn := hS.nodup_iff.2 hfn
  refine ⟨fun op hop => ?_, hSn, ?_⟩
  · have := hops.subset hop
    rw [hbops, List.mem_append] at this
    rcases this with hx | hx
    · obtain ⟨_, _, rfl⟩ := List.mem_map.1 hx
      exact .inl rfl
    · obtain ⟨_, _, rfl⟩ := List.mem_map.1 hx
      exact .inr rfl
  · have hdis : ∀ i ∈ l, i ∉ s.group gid := fun i hi hg => by
      have h1 : kvAt s.storage i ∈ o.hset hs := hlk ▸ List.mem_map.2 ⟨i, hi, rfl⟩
      exact hgone i (hperm.mem_iff.2 hg) (hpo.subset h1)
    have hkd : (kept ++ done).Nodup := k1.nodup_iff.2 g1
    have hmem : ∀ i, i ∈ s.group gid ↔ i ∈ kept ∨ i ∈ done := fun i => by rw [← k1.mem_iff, List.mem_append]
    rw [List.nodup_append] at hkd
    have hpm : (symDiff (s.group gid) (((o.instr base).flatMap (·.2)).flatMap opStog)).Perm (kept ++ l) := by
      refine (List.perm_ext_iff_of_nodup (nodup_symDiff g1) ?_).2 fun i => ?_
      · rw [List.nodup_append]
        exact ⟨hkd.1, hln, fun x hx y hy hxy => hdis y hy ((hmem y).2 (.inl (hxy ▸ hx)))⟩
      · rw [mem_symDiff hSn, hS.mem_iff, hfm, hmem, List.mem_append]
        have q1 : i ∈ l → ¬ (i ∈ kept ∨ i ∈ done) := fun hi hg => hdis i hi ((hmem i).2 hg)
        have q2 : i ∈ kept → i ∉ done := fun hi hd => hkd.2.2 i hi i hd rfl
        tauto
    refine (hpm.map _).trans ?_
    rw [List.map_append, hlk]
    exact (List.Perm.append_left _ hpo).trans k2

/-- A message of known headers changes nothing but its group, which has the headers of the message afterwards. -/
theorem message_known {cfg : Config} (hc : ConfigOk cfg) (he : cfg.onlyEtoggles = false) (hadj : cfg.hgAdjust = false)
    {o : Orders} (ho : o.Ok) {s : Codec} (h : CodecOk cfg s) (headers : Dict Str Str)
    (hb : ∀ kv ∈ headers, (∀ c ∈ kv.1, c < 256) ∧ ∀ c ∈ kv.2, c < 256) (hk : ∀ x ∈ headersSet headers, InTable s.storage x)
    (gid : Nat) {s' : Codec} {gs : Groups} (hgs : makeOperations cfg o s headers gid = .ok (s', gs)) :
    s'.storage = s.storage ∧ ((s'.group gid).map (kvAt s'.storage)).Perm (headersSet headers) ∧
      ∀ g, g ≠ gid → s'.group g = s.group g := by
  have hm := h.findOrMake gid
  have hst := findOrMake_storage s gid
  have hgr := findOrMake_group s gid
  obtain ⟨gs0, e1, hgood, hrun, _⟩ := makeInstructions_spec hc.high ho hm headers (headersSet_bytes hb) gid
  obtain ⟨t1, t2, t3⟩ := makeInstructions_known he ho hm headers (fun x hx => by rw [hst]; exact hk x hx) gid e1
  rw [hst] at hgood hrun t3
  rw [hgr] at t3
  obtain ⟨gs', e2, hg2, hback⟩ := hgToLru_spec hc h.storage gs0 hgood
  simp only [makeOperations, bind, Except.bind, e1, hst, e2, execute_make, pure, Except.pure] at hgs
  split at hgs
  · cases hgs
  · rename_i r hr
    obtain ⟨s1, out⟩ := r
    cases hgs
    obtain ⟨u1, u2⟩ := execute_toggles hadj hback hrun t1 hr
    have hgrp : s1.group gid = symDiff (s.group gid) ((gs0.flatMap (·.2)).flatMap opStog) := by
      simp only [Codec.group, u2, Dict.get?_set, if_true, Option.getD_some]
    refine ⟨u1, by rw [hgrp, u1]; exact t3, fun g hg => ?_⟩
    simp only [Codec.group, u2]
    rw [Dict.get?_set, if_neg (fun h => hg h.symm)]
    unfold findOrMake
    split
    · rfl
    · simp only
      rw [Dict.get?_set, if_neg (fun h => hg h.symm)]

end Verif.Delta2
