import Verif.Delta2.Left
import Verif.Delta2.RepeatPath
/-
What a message of delta2 does to the dynamic table and to the groups of other hosts.
-/
namespace Verif.Delta2
open Verif

/-! ### A refused header -/

theorem popWhile_empty (cond : Counts → Lru → Bool) (n : Nat) : ∀ (c : Counts) (s : Lru) (ps : List Entry), n = s.ring.length →
    (popWhile cond n c s ps).ok = false → (popWhile cond n c s ps).lru.ring = [] := by
  induction n with
  | zero =>
    intro c s ps hn _
    exact List.length_eq_zero_iff.1 hn.symm
  | succ n ih =>
    intro c s ps hn h
    simp only [popWhile] at h ⊢
    split at h
    · rename_i hc
      rw [if_pos hc]
      cases hr : s.ring with
      | nil => simp [hr] at hn
      | cons e r =>
        have hp : popOne c s = some (e.kv.done c, { s with ring := r, byteSize := s.byteSize - e.kv.byteSize c }, e) := by
          simp only [popOne, hr]
        simp only [hp] at h ⊢
        exact ih _ _ _ (by simp [hr] at hn; exact hn) h
    · simp at h

/-- A header is refused only by an empty table. -/
theorem insertVal_refused {st : Storage} {a b m : Int} (h : StorageOk st a b m) (ha : a ≠ 0) {kv : KV} {st' : Storage} {ps : List Entry}
    (hx : insertVal st kv = .ok (st', ps, none)) : st'.lru.ring = [] := by
  by_cases hb : b = 0
  · have he := h.entries
    have h0 : st.lru.ring = [] := List.length_eq_zero_iff.1 (by omega)
    obtain ⟨hp, _⟩ := reserve_spec kv st.counts st.lru 1
    simp only [insertVal] at hx
    split at hx
    · simp only [bind, Except.bind] at hx
      repeat' split at hx
      all_goals cases hx
    · cases hx
      have := hp.ring
      rw [h0] at this
      exact (List.append_eq_nil_iff.1 this.symm).2
  · simp only [insertVal] at hx
    split at hx
    · simp only [bind, Except.bind] at hx
      repeat' split at hx
      all_goals cases hx
    · rename_i hok
      cases hx
      simp only
      have hno : ¬ (st.lru.maxItems = some 0 ∨ st.lru.maxBytes = some 0) := by
        rw [h.maxItems, h.maxBytes]
        simp only [Option.some.injEq]
        tauto
      simp only [reserve] at hok ⊢
      rw [if_neg hno] at hok ⊢
      simp only [reserveItems, h.maxItems] at hok ⊢
      generalize hq : popWhile (fun _ s => decide ((s.ring.length : Int) + 1 > b)) st.lru.ring.length st.counts st.lru [] = q at hok ⊢
      cases hqo : q.ok with
      | false =>
        simp only [Bool.false_eq_true, if_false]
        rw [← hq] at hqo ⊢
        exact popWhile_empty _ _ _ _ _ rfl hqo
      | true =>
        simp only [hqo, if_true] at hok ⊢
        have hmb : q.lru.maxBytes = some a := by
          obtain ⟨qs, _, h2, _⟩ := popWhile_spec (fun _ s => decide ((s.ring.length : Int) + 1 > b)) st.lru.ring.length st.counts st.lru []
          rw [hq] at h2
          exact h2.same.bytes.trans h.maxBytes
        simp only [reserveBytes, hmb] at hok ⊢
        exact popWhile_empty _ _ _ _ _ rfl (by simpa using hok)

/-! ### Room in the table -/

/-- The bytes of some headers. -/
def pairBytes (l : List Hdr) : Int := (l.map fun x => (x.1.length : Int) + x.2.length).sum

theorem pairBytes_append (l r : List Hdr) : pairBytes (l ++ r) = pairBytes l + pairBytes r := by
  simp [pairBytes]

theorem pairBytes_nonneg (l : List Hdr) : 0 ≤ pairBytes l := by
  induction l with
  | nil => simp [pairBytes]
  | cons x l ih =>
    have : pairBytes (x :: l) = (x.1.length : Int) + x.2.length + pairBytes l := by simp [pairBytes]
    omega

theorem pairBytes_sublist {l r : List Hdr} (h : l.Sublist r) : pairBytes l ≤ pairBytes r := by
  induction h with
  | slnil => exact Int.le_refl _
  | cons x _ ih => simp only [pairBytes, List.map_cons, List.sum_cons] at ih ⊢; omega
  | cons_cons x _ ih => simp only [pairBytes, List.map_cons, List.sum_cons] at ih ⊢; omega

/-- There is room for the headers in the dynamic table. -/
def Fits (cfg : Config) (st : Storage) (l : List Hdr) : Prop :=
  cfg.maxBytes ≠ 0 ∧ st.lru.byteSize + pairBytes l ≤ cfg.maxBytes ∧ (st.lru.ring.length : Int) + l.length ≤ cfg.maxEntries

theorem Fits.before {cfg : Config} {st : Storage} {l r : List Hdr} (h : Fits cfg st (l ++ r)) : Fits cfg st l := by
  obtain ⟨h1, h2, h3⟩ := h
  have := pairBytes_nonneg r
  rw [pairBytes_append] at h2
  simp only [List.length_append] at h3
  exact ⟨h1, by omega, by push_cast at h3; omega⟩

theorem popWhile_room (cond : Counts → Lru → Bool) (n : Nat) (c : Counts) (s : Lru) (ps : List Entry) (h : cond c s = false) :
    popWhile cond n c s ps = { counts := c, lru := s, popped := ps, ok := true } := by
  cases n with
  | zero => simp [popWhile, h]
  | succ n => simp [popWhile, h]

theorem cellLen_le (c : Counts) (a : Nat) (s : Str) : cellLen c a s ≤ s.length := by
  unfold cellLen
  split <;> omega

theorem byteSize_le (c : Counts) (kv : KV) : kv.byteSize c ≤ (kv.key.length : Int) + kv.val.length := by
  have := cellLen_le c kv.vcell kv.val
  have := cellLen_le c kv.kcell kv.key
  unfold KV.byteSize
  omega

/-- With room nothing is removed and the header is stored. -/
theorem insertVal_room {st : Storage} {a b m : Int} (h : StorageOk st a b m) (ha : a ≠ 0) {kv : KV}
    (hbytes : st.lru.byteSize + kv.byteSize st.counts ≤ a) (hitems : (st.lru.ring.length : Int) + 1 ≤ b)
    {st' : Storage} {ps : List Entry} {r : Option Int} (hx : insertVal st kv = .ok (st', ps, r)) :
    ps = [] ∧ r ≠ none ∧ st'.lru.byteSize = st.lru.byteSize + kv.byteSize st.counts := by
  have hno : ¬ (st.lru.maxItems = some 0 ∨ st.lru.maxBytes = some 0) := by
    rw [h.maxItems, h.maxBytes]
    simp only [Option.some.injEq]
    omega
  have hres : reserve kv 1 st.counts st.lru = { counts := st.counts, lru := st.lru, popped := [], ok := true } := by
    simp only [reserve]
    rw [if_neg hno]
    simp only [reserveItems, h.maxItems]
    rw [popWhile_room _ _ _ _ _ (by simp only [decide_eq_false_iff_not]; omega)]
    simp only [if_true, reserveBytes, h.maxBytes]
    rw [popWhile_room _ _ _ _ _ (by simp only [decide_eq_false_iff_not]; omega)]
  simp only [insertVal, hres, if_true, bind, Except.bind, Lru.store] at hx
  split at hx
  · cases hx
  · rename_i lru hl
    split at hl
    · cases hl
    · split at hl
      · cases hl
      · cases hl
        split at hx
        · cases hx
        · cases hx
          exact ⟨rfl, by simp, rfl⟩

/-! ### A step of the table -/

theorem removeAll_group (ps : List Entry) : ∀ {groups : Dict Nat (List Int)}, Dict.WF groups → ∀ gid : Nat,
    (Dict.get? (ps.foldl removeVIdx groups) gid).getD [] = ((groups.get? gid).getD []).filter fun i => ∀ e ∈ ps, e.seq ≠ i := by
  induction ps with
  | nil => intro groups _ gid; simp
  | cons p ps ih =>
    intro groups hwf gid
    have hw : Dict.WF (removeVIdx groups p) := List.Nodup.sublist (removeVIdx_keys groups p) hwf
    rw [List.foldl_cons, ih hw, get?_removeVIdx groups p hwf, List.filter_filter]
    refine List.filter_congr fun i _ => ?_
    by_cases hi : i = p.seq
    · simp [hi]
    · have : p.seq ≠ i := fun h => hi h.symm
      simp [hi, this]

/-- The table and the other groups between two states: the oldest entries `gone` have been removed, from the other groups too, and
`added` is behind what was kept.  `seen` is what was to be stored, and if there was room for it all of it
is in the table. -/
structure TableStep (cfg : Config) (s0 s : Codec) (gid : Nat) (gone kept added : List Entry) (seen : List Hdr) : Prop where
  old : s0.storage.lru.ring = gone ++ kept
  new : s.storage.lru.ring = kept ++ added
  static : s.storage.static = s0.storage.static
  from_seen : (added.map fun e => (e.kv.key, e.kv.val)).Sublist seen
  last : cfg.maxBytes ≠ 0 → (added.map fun e => (e.kv.key, e.kv.val)) <:+ seen
  lost : cfg.maxBytes ≠ 0 → (added.map fun e => (e.kv.key, e.kv.val)) = seen ∨ kept = []
  room : Fits cfg s0.storage seen → gone = [] ∧ (added.map fun e => (e.kv.key, e.kv.val)) = seen ∧
    s.storage.lru.byteSize ≤ s0.storage.lru.byteSize + pairBytes seen
  groups : ∀ g, g ≠ gid → s.group g = (s0.group g).filter fun i => ∀ e ∈ gone, e.seq ≠ i

theorem storeKV_step {cfg : Config} (hb : cfg.maxEntries ≤ cfg.maxIndex - 65) {s0 s : Codec} {gid : Nat}
    {gone kept added : List Entry} {seen : List Hdr} (h0 : CodecOk cfg s0) (h : CodecOk cfg s)
    (ht : TableStep cfg s0 s gid gone kept added seen) {kv : KV} {s' : Codec} {r : Option Int} (hx : storeKV cfg s kv = .ok (s', r)) :
    ∃ gone' kept' added', TableStep cfg s0 s' gid gone' kept' added' (seen ++ [(kv.key, kv.val)]) := by
  generalize hr : (if cfg.refcntVals then kvShare s.storage.counts kv else kvShareKey s.storage.counts kv kv.val) = q at *
  obtain ⟨st', ps, i, e, hst, hstatic, keep, hring, hcase⟩ := insertVal_spec (h.storage.counts q.1) hb q.2
  have href := fun ha => @insertVal_refused _ _ _ _ (h.storage.counts q.1) ha q.2
  simp only [storeKV, hr, bind, Except.bind, e, pure, Except.pure] at hx
  cases hx
  have hq : q.2.key = kv.key ∧ q.2.val = kv.val := by
    rw [← hr]
    split <;> exact ⟨rfl, rfl⟩
  have hring : kept ++ added = ps ++ keep := by rw [← ht.new]; exact hring
  -- the entries that are new
  obtain ⟨more, hmore, hmp, hmn⟩ : ∃ more : List Entry, st'.lru.ring = keep ++ more ∧
      (more.map fun e => (e.kv.key, e.kv.val)).Sublist [(kv.key, kv.val)] ∧
      (cfg.maxBytes ≠ 0 → more = [] → keep = []) := by
    rcases hcase with ⟨hn, h2⟩ | ⟨_, h2⟩
    · subst hn
      exact ⟨[], by simp [h2], by simp, fun ha _ => h2 ▸ href ha e⟩
    · exact ⟨_, h2, by simp [hq], by simp⟩
  have hmem : more = [] ∨ (more.map fun e => (e.kv.key, e.kv.val)) = [(kv.key, kv.val)] := by
    rcases List.sublist_singleton.1 hmp with hm | hm
    · exact .inl (List.map_eq_nil_iff.1 hm)
    · exact .inr hm
  have hlast : ∀ l : List Entry, cfg.maxBytes ≠ 0 → (keep = [] → l = []) → (l.map fun e => (e.kv.key, e.kv.val)) <:+ seen →
      ((l ++ more).map fun e => (e.kv.key, e.kv.val)) <:+ seen ++ [(kv.key, kv.val)] := by
    intro l ha hl hs
    rcases hmem with hm | hm
    · rw [hl (hmn ha hm), hm]
      exact List.nil_suffix
    · rw [List.map_append, hm]
      obtain ⟨t, ht⟩ := hs
      exact ⟨t, by rw [← List.append_assoc, ht]⟩
  have hroom : Fits cfg s0.storage (seen ++ [(kv.key, kv.val)]) → gone = [] ∧ (added.map fun e => (e.kv.key, e.kv.val)) = seen ∧ ps = [] ∧
      (more.map fun e => (e.kv.key, e.kv.val)) = [(kv.key, kv.val)] ∧
      st'.lru.byteSize ≤ s0.storage.lru.byteSize + pairBytes (seen ++ [(kv.key, kv.val)]) := by
    intro hfit
    obtain ⟨r1, r2, r3⟩ := ht.room hfit.before
    obtain ⟨f1, f2, f3⟩ := hfit
    have hsz := byteSize_le q.1 q.2
    rw [hq.1, hq.2] at hsz
    rw [pairBytes_append] at f2 ⊢
    have hp1 : pairBytes [(kv.key, kv.val)] = (kv.key.length : Int) + kv.val.length := by simp [pairBytes]
    rw [hp1] at f2 ⊢
    have hlen : (s.storage.lru.ring.length : Int) = s0.storage.lru.ring.length + seen.length := by
      have h1 := congrArg List.length ht.old
      have h2 := congrArg List.length ht.new
      have h3 := congrArg List.length r2
      rw [r1] at h1
      simp only [List.length_append, List.length_map, List.length_nil] at h1 h2 h3
      omega
    simp only [List.length_append, List.length_singleton] at f3
    push_cast at f3
    obtain ⟨i1, i2, i3⟩ := insertVal_room (h.storage.counts q.1) f1 (by simp only; omega) (by simp only; omega) e
    simp only at i3
    refine ⟨r1, r2, i1, ?_, by omega⟩
    rcases hmem with hm | hm
    · exfalso
      rcases hcase with ⟨hn, _⟩ | ⟨_, h2⟩
      · exact i2 hn
      · rw [hmore, hm, List.append_nil] at h2
        have := congrArg List.length h2
        simp at this
    · exact hm
  have hgrp : ∀ g, (⟨st', ps.foldl removeVIdx s.groups⟩ : Codec).group g = (s.group g).filter fun i => ∀ e ∈ ps, e.seq ≠ i :=
    fun g => removeAll_group ps h.wf g
  have hold : ∀ g, ∀ i ∈ s0.group g, (0 ≤ i ∧ i < 65) ∨ (∃ e ∈ gone, e.seq = i) ∨ ∃ e ∈ kept, e.seq = i := by
    intro g i hi
    rcases (h0.group g).2 i hi with hi | ⟨e, he, hei⟩
    · exact .inl hi
    · rw [ht.old] at he
      rcases List.mem_append.1 he with he | he
      · exact .inr (.inl ⟨e, he, hei⟩)
      · exact .inr (.inr ⟨e, he, hei⟩)
  have hstat : st'.static = s0.storage.static := hstatic.trans ht.static
  have hseen : ∀ (a : List Entry), (a.map fun e => (e.kv.key, e.kv.val)).Sublist seen →
      ((a ++ more).map fun e => (e.kv.key, e.kv.val)).Sublist (seen ++ [(kv.key, kv.val)]) := by
    intro a h
    rw [List.map_append]
    exact h.append hmp
  rcases List.append_eq_append_iff.1 hring with ⟨a', h1, h2⟩ | ⟨c', h1, h2⟩
  · -- everything that was kept is gone, and `a'` of what was added
    refine ⟨gone ++ kept, [], keep ++ more, ⟨by simp [ht.old], by simpa using hmore, hstat, ?_, fun ha => ?_, fun _ => .inr rfl,
      fun hfit => ?_, fun g hg => ?_⟩⟩
    · refine hseen keep (List.Sublist.trans ?_ ht.from_seen)
      rw [h2, List.map_append]
      exact List.sublist_append_right _ _
    · refine hlast keep ha id (List.IsSuffix.trans ?_ (ht.last ha))
      rw [h2, List.map_append]
      exact List.suffix_append _ _
    · obtain ⟨r1, r2, r3, r4, r5⟩ := hroom hfit
      rw [r3] at h1
      obtain ⟨hk, ha'⟩ := List.append_eq_nil_iff.1 h1.symm
      rw [ha', List.nil_append] at h2
      exact ⟨by rw [r1, hk]; rfl, by rw [List.map_append, ← h2, r2, r4], r5⟩
    · rw [hgrp, ht.groups g hg, List.filter_filter]
      refine List.filter_congr fun i hi => ?_
      have hap : ∀ e ∈ a', (65 : Int) ≤ e.seq := by
        intro e he
        have : e ∈ s.storage.lru.ring := by
          rw [ht.new, h2]
          simp [he]
        have := (h.storage.ring.range this).1
        rw [h.storage.offset] at this
        exact this
      rw [h1]
      simp only [← Bool.decide_and, decide_eq_decide, List.mem_append]
      constructor
      · rintro ⟨k1, k2⟩ e (he | he)
        · exact k2 e he
        · exact k1 e (.inl he)
      · intro k
        refine ⟨fun e he => ?_, fun e he => k e (.inl he)⟩
        rcases he with he | he
        · exact k e (.inr he)
        · have := hap e he
          rcases hold g i hi with ⟨_, hlt⟩ | ⟨e', he', hei⟩ | ⟨e', he', hei⟩
          · omega
          · exact absurd hei (k e' (.inl he'))
          · exact absurd hei (k e' (.inr he'))
  · -- only some of what was kept is gone
    refine ⟨gone ++ ps, c', added ++ more, ⟨by rw [ht.old, h1, List.append_assoc], by rw [hmore, h2, List.append_assoc], hstat,
      hseen added ht.from_seen, fun ha => hlast added ha (fun hk => ?_) (ht.last ha), fun ha => ?_, fun hfit => ?_, fun g hg => ?_⟩⟩
    · rw [hk] at h2
      exact (List.append_eq_nil_iff.1 h2.symm).2
    · rcases hmem with hm | hm
      · right
        have := hmn ha hm
        rw [h2] at this
        exact (List.append_eq_nil_iff.1 this).1
      · rcases ht.lost ha with hl | hl
        · left
          rw [List.map_append, hl, hm]
        · right
          rw [hl] at h1
          exact (List.append_eq_nil_iff.1 h1.symm).2
    · obtain ⟨r1, r2, r3, r4, r5⟩ := hroom hfit
      exact ⟨by rw [r1, r3]; rfl, by rw [List.map_append, r2, r4], r5⟩
    · rw [hgrp, ht.groups g hg, List.filter_filter]
      refine List.filter_congr fun i hi => ?_
      simp only [← Bool.decide_and, decide_eq_decide, List.mem_append]
      constructor
      · rintro ⟨k1, k2⟩ e (he | he)
        · exact k2 e he
        · exact k1 e he
      · intro k
        exact ⟨fun e he => k e (.inr he), fun e he => k e (.inl he)⟩

theorem TableStep.other {cfg : Config} {s0 s s' : Codec} {gid : Nat} {gone kept added : List Entry} {seen : List Hdr}
    (h : TableStep cfg s0 s gid gone kept added seen) (hs : s'.storage = s.storage) (hg : ∀ g, g ≠ gid → s'.group g = s.group g) :
    TableStep cfg s0 s' gid gone kept added seen :=
  ⟨h.old, by rw [hs]; exact h.new, by rw [hs]; exact h.static, h.from_seen, h.last, h.lost, by rw [hs]; exact h.room, fun g hne => (hg g hne).trans (h.groups g hne)⟩

theorem storeLater_step {cfg : Config} (hb : cfg.maxEntries ≤ cfg.maxIndex - 65) {s0 : Codec}
    (h0 : CodecOk cfg s0) (gid : Nat) (kvs : List KV) : ∀ (s s' : Codec) (gone kept added : List Entry) (seen : List Hdr),
    CodecOk cfg s → TableStep cfg s0 s gid gone kept added seen → storeLater cfg gid kvs s = .ok s' →
    ∃ gone' kept' added', TableStep cfg s0 s' gid gone' kept' added' (seen ++ kvs.map fun kv => (kv.key, kv.val)) := by
  induction kvs with
  | nil =>
    intro s s' gone kept added seen _ ht h
    cases h
    exact ⟨gone, kept, added, by simpa using ht⟩
  | cons kv kvs ih =>
    intro s s' gone kept added seen h ht hx
    obtain ⟨s1, r, e1, h1, hr⟩ := storeKV_spec h hb kv
    obtain ⟨g', k', a', ht1⟩ := storeKV_step hb h0 h ht e1
    simp only [storeLater, bind, Except.bind, e1] at hx
    cases hi : cfg.implicitAdd with
    | true =>
      simp only [hi, if_true] at hx
      simpa using ih _ _ g' k' a' _ (h1.addIdx gid r hr) (ht1.other (addIdx_store _ _ _) (fun g hne => addIdx_other s1 hne r)) hx
    | false =>
      simp only [hi, Bool.false_eq_true, if_false] at hx
      simpa using ih _ _ g' k' a' _ h1 ht1 hx

theorem adjustLater_step {cfg : Config} (hb : cfg.maxEntries ≤ cfg.maxIndex - 65) {s0 : Codec}
    (h0 : CodecOk cfg s0) (gid : Nat) (kvs : List (KV × Int)) : ∀ (s s' : Codec) (gone kept added : List Entry) (seen : List Hdr),
    CodecOk cfg s → TableStep cfg s0 s gid gone kept added seen → adjustLater cfg gid kvs s = .ok s' →
    ∃ gone' kept' added', TableStep cfg s0 s' gid gone' kept' added' (seen ++ kvs.map fun kv => (kv.1.key, kv.1.val)) := by
  induction kvs with
  | nil =>
    intro s s' gone kept added seen _ ht h
    cases h
    exact ⟨gone, kept, added, by simpa using ht⟩
  | cons kv kvs ih =>
    intro s s' gone kept added seen h ht hx
    obtain ⟨kv, old⟩ := kv
    have hc := (h.change gid (fun hg => hg.filter (· ≠ old)) fun l hn hl =>
      ⟨hn.filter _, fun i hi => hl i (List.mem_of_mem_filter hi)⟩).1
    obtain ⟨s1, r, e1, h1, hr⟩ := storeKV_spec hc hb kv
    obtain ⟨g', k', a', ht1⟩ := storeKV_step hb h0 hc (ht.other (changeGroup_store _ _ _) (fun g hne => change_other s hne _)) e1
    simp only [adjustLater, bind, Except.bind, e1] at hx
    have := ih _ _ g' k' a' _ (h1.addIdx gid r hr) (ht1.other (addIdx_store _ _ _) (fun g hne => addIdx_other s1 hne r)) hx
    simpa using this

/-! ### What is stored -/

/-- The pair that an operation stores. -/
def storedPairs (st : Storage) (op : Op) : List Hdr :=
  if op.opcode = .sclone ∨ op.opcode = .skvsto then opPairs st op else []

theorem makeAll_stores {cfg : Config} {st : Storage} {a b c : Int} (h : StorageOk st a b c) (hs : List Hdr) (hn : hs.Nodup) :
    (((hs.foldl (makeOne cfg st) {}).sclone ++ (hs.foldl (makeOne cfg st) {}).skvsto).flatMap (storedPairs st)).Nodup ∧
    (∀ op ∈ (hs.foldl (makeOne cfg st) {}).etoggl, op.opcode = .etoggl) ∧
    (∀ op ∈ (hs.foldl (makeOne cfg st) {}).eclone, op.opcode = .eclone) ∧
    ∀ x, x ∈ ((hs.foldl (makeOne cfg st) {}).sclone ++ (hs.foldl (makeOne cfg st) {}).skvsto).flatMap (storedPairs st) ↔
      x ∈ hs ∧ ¬ InTable st x ∧ x.1 ≠ b!":path" := by
  induction hs using List.reverseRecOn with
  | nil => simp
  | append_singleton hs x ih =>
    rw [List.nodup_append] at hn
    have hx : x ∉ hs := fun hx => hn.2.2 x hx x (by simp) rfl
    rw [List.foldl_append]
    have ih := ih hn.1
    generalize hs.foldl (makeOne cfg st) {} = m at ih ⊢
    obtain ⟨i1, i2, i3, i4⟩ := ih
    simp only [List.foldl_cons, List.foldl_nil]
    have hno : InTable st x ∨ x.1 = b!":path" → ∀ y, y ∈ (m.sclone ++ m.skvsto).flatMap (storedPairs st) ↔
        y ∈ hs ++ [x] ∧ ¬ InTable st y ∧ y.1 ≠ b!":path" := by
      intro hk y
      rw [i4]
      simp only [List.mem_append, List.mem_singleton]
      constructor
      · rintro ⟨y1, y2⟩
        exact ⟨.inl y1, y2⟩
      · rintro ⟨y1 | rfl, y2⟩
        · exact ⟨y1, y2⟩
        · tauto
    have hyes : ¬ InTable st x → x.1 ≠ b!":path" → ∀ l : List Hdr, l.Perm (x :: (m.sclone ++ m.skvsto).flatMap (storedPairs st)) →
        l.Nodup ∧ ∀ y, y ∈ l ↔ y ∈ hs ++ [x] ∧ ¬ InTable st y ∧ y.1 ≠ b!":path" := by
      intro h1 h2 l hl
      refine ⟨hl.nodup_iff.2 (List.nodup_cons.2 ⟨fun hm => hx ((i4 x).1 hm).1, i1⟩), fun y => ?_⟩
      rw [hl.mem_iff, List.mem_cons, i4]
      simp only [List.mem_append, List.mem_singleton]
      constructor
      · rintro (rfl | ⟨y1, y2⟩)
        · exact ⟨.inr rfl, h1, h2⟩
        · exact ⟨.inl y1, y2⟩
      · rintro ⟨y1 | y1, y2⟩
        · exact .inr ⟨y1, y2⟩
        · exact .inl y1
    unfold makeOne
    split
    · rename_i k v hf
      have hin : InTable st x := by
        rcases findEntryIdx_spec h x.1 x.2 with ⟨k', v', r, hl, hv⟩ | ⟨k', r, _⟩ | r
        · have := inTable_of_live h hl
          rw [hv] at this
          exact this
        · rw [r] at hf; cases hf
        · rw [r] at hf; cases hf
      split
      · refine ⟨i1, ?_, i3, hno (.inl hin)⟩
        intro op hop
        rcases List.mem_append.1 hop with hop | hop
        · exact i2 op hop
        · simp only [List.mem_singleton] at hop
          subst hop
          rfl
      · exact ⟨i1, i2, i3, hno (.inl hin)⟩
    · rename_i k hf
      have hnot : ¬ InTable st x := by
        intro hin
        obtain ⟨v, hv⟩ := findEntryIdx_finds hin
        rw [hf] at hv
        cases hv
      split
      · rename_i hpath
        refine ⟨i1, i2, ?_, hno (.inr hpath)⟩
        intro op hop
        rcases List.mem_append.1 hop with hop | hop
        · exact i3 op hop
        · simp only [List.mem_singleton] at hop
          subst hop
          rfl
      · rename_i hpath
        have hk : (kvAt st k).1 = x.1 := by
          rcases findEntryIdx_spec h x.1 x.2 with ⟨k', v, r, _⟩ | ⟨k', r, _, hk⟩ | r
          · rw [r] at hf; cases hf
          · rw [r] at hf; cases hf; exact hk
          · rw [r] at hf; cases hf
        obtain ⟨j1, j2⟩ := hyes hnot hpath (((m.sclone ++ [({ opcode := .sclone, index := some k, val := some x.2 } : Op)]) ++ m.skvsto).flatMap
          (storedPairs st)) (by
            have : storedPairs st { opcode := .sclone, index := some k, val := some x.2 } = [x] := by
              simp [storedPairs, opPairs, hk]
            simp only [List.append_assoc, List.flatMap_append, List.flatMap_cons, List.flatMap_nil, this, List.append_nil]
            exact List.perm_middle)
        exact ⟨j1, i2, i3, j2⟩
    · rename_i hf
      have hnot : ¬ InTable st x := by
        intro hin
        obtain ⟨v, hv⟩ := findEntryIdx_finds hin
        rw [hf] at hv
        cases hv
      have hpath : x.1 ≠ b!":path" := fun hx => findEntryIdx_key (path_static h) x.2 (hx ▸ hf)
      obtain ⟨j1, j2⟩ := hyes hnot hpath ((m.sclone ++ (m.skvsto ++ [({ opcode := .skvsto, key := some x.1, val := some x.2 } : Op)])).flatMap
        (storedPairs st)) (by
          have : storedPairs st { opcode := .skvsto, key := some x.1, val := some x.2 } = [x] := by
            simp [storedPairs, opPairs]
          rw [← List.append_assoc, List.flatMap_append, List.flatMap_cons, this]
          exact List.perm_append_singleton _ _)
      exact ⟨j1, i2, i3, j2⟩

theorem makeInstructions_stores {cfg : Config} {o : Orders} (ho : o.Ok) {s : Codec} (h : CodecOk cfg s) (headers : Dict Str Str)
    (gid : Nat) {gs : Groups} (hgs : makeInstructions cfg o s headers gid = .ok gs) :
    ((gs.flatMap (·.2)).flatMap (storedPairs s.storage)).Nodup ∧
    ∀ x, x ∈ (gs.flatMap (·.2)).flatMap (storedPairs s.storage) ↔
      x ∈ headersSet headers ∧ ¬ InTable s.storage x ∧ x.1 ≠ b!":path" := by
  obtain ⟨g1, g2⟩ := h.group gid
  have hperm := ho.hg (s.group gid)
  obtain ⟨hs, done, e1, hsn, hdn, hd, hsub, hrest, hkeep, hgone⟩ := hgLoop_spec h.storage (o.hg (s.group gid)) (headersSet headers) []
    (fun i hi => g2 i (hperm.subset hi)) (by simpa using hperm.nodup_iff.2 g1) (nodup_headersSet headers)
  simp only [makeInstructions, bind, Except.bind, e1] at hgs
  obtain ⟨j1, j2, j3, j4⟩ := makeAll_stores (cfg := cfg) h.storage (o.hset hs) ((ho.hset hs).nodup_iff.2 hsn)
  obtain ⟨is, hk⟩ := makeAll_spec (cfg := cfg) h.storage (o.hset hs) ((ho.hset hs).nodup_iff.2 hsn)
  have hk := hk.etoggl
  generalize (o.hset hs).foldl (makeOne cfg s.storage) {} = m at hgs j1 j2 j3 j4 hk
  obtain ⟨ts', rs', f2, _⟩ := figureOutRanges_spec .etoggl .etrang is
  generalize o.toggl (List.foldl addSet m.stoggls done) = full at hgs
  obtain ⟨ts, rs, f1, _⟩ := figureOutRanges_spec .stoggl .strang full
  have f1' : figureOutRanges (List.map (fun i => ({ opcode := .stoggl, index := some i } : Op)) full) .strang =
    .ok (ts.map (toggle .stoggl), rs.map fun r => range .strang r.1 r.2) := f1
  simp only [hk, f2, f1', pure, Except.pure] at hgs
  cases hgs
  have hno : ∀ l : List Op, (∀ op ∈ l, op.opcode ≠ .sclone ∧ op.opcode ≠ .skvsto) → l.flatMap (storedPairs s.storage) = [] := by
    intro l hl
    rw [List.flatMap_eq_nil_iff]
    intro op hop
    obtain ⟨h1, h2⟩ := hl op hop
    simp [storedPairs, h1, h2]
  have hpp := (((ho.instr [(.stoggl, ts.map (toggle .stoggl)), (.etoggl, ts'.map (toggle .etoggl)), (.sclone, m.sclone), (.eclone, m.eclone),
    (.skvsto, m.skvsto), (.ekvsto, []), (.etrang, rs'.map fun r => range .etrang r.1 r.2),
    (.strang, rs.map fun r => range .strang r.1 r.2)]).flatMap_right (·.2)).flatMap_right (storedPairs s.storage))
  simp only [List.flatMap_cons, List.flatMap_nil, List.append_nil, List.nil_append, List.flatMap_append] at hpp
  rw [hno (ts.map _) (by simp [toggle]), hno (ts'.map _) (by simp [toggle]), hno m.eclone (fun op hop => by simp [j3 op hop]),
    hno (rs'.map _) (by rintro op hop; obtain ⟨_, _, rfl⟩ := List.mem_map.1 hop; simp [range]),
    hno (rs.map _) (by rintro op hop; obtain ⟨_, _, rfl⟩ := List.mem_map.1 hop; simp [range])] at hpp
  simp only [List.nil_append, List.append_nil, ← List.flatMap_append] at hpp
  refine ⟨hpp.nodup_iff.2 j1, fun x => ?_⟩
  rw [hpp.mem_iff, j4]
  constructor
  · rintro ⟨x1, x2⟩
    exact ⟨hsub x ((ho.hset hs).subset x1), x2⟩
  · rintro ⟨x1, x2⟩
    refine ⟨(ho.hset hs).symm.subset ?_, x2⟩
    by_contra hx
    obtain ⟨i, hi, _, hiv⟩ := hrest x x1 hx
    have := inTable_of_live h.storage (g2 i (hperm.subset hi))
    rw [hiv] at this
    exact x2.1 this

/-- What is stored later is what the operations store. -/
theorem execOps_stores (st : Storage) (ops : List Op) : ∀ e e' : Exec, e.storage.static = st.static ∧ e.storage.lru = st.lru →
    (∀ op ∈ ops, OpRuns st op) → execOps ops e = .ok e' →
    (e'.later.map fun kv => (kv.key, kv.val)) = (e.later.map fun kv => (kv.key, kv.val)) ++ ops.flatMap (storedPairs st) := by
  induction ops with
  | nil => intro e e' _ _ h; cases h; simp
  | cons op ops ih =>
    intro e e' hs hops hx
    obtain ⟨e1, x1, y1, _⟩ := execOp_spec st e op hs (hops op (by simp))
    simp only [execOps, bind, Except.bind, x1] at hx
    rw [ih e1 e' y1 (fun o ho => hops o (by simp [ho])) hx, List.flatMap_cons, ← List.append_assoc]
    congr 1
    have hlook : ∀ j, lookupFromIdx e.storage j = lookupFromIdx st j := by
      intro j
      simp only [lookupFromIdx, hs.1, hs.2]
    obtain ⟨oc, i, sx, k, v⟩ := op
    cases oc <;> simp only [execOp, bind, Except.bind] at x1
    case sclone =>
      cases i with
      | none => simp only [Op.idx] at x1; cases x1
      | some i =>
        cases v with
        | none => simp only [Op.idx, Op.theVal] at x1; cases x1
        | some v =>
          simp only [Op.idx, Op.theVal, hlook] at x1
          split at x1
          · cases x1
          · rename_i en hen
            cases x1
            simp [storedPairs, opPairs, kvAt_ok hen, kvShareKey]
    case skvsto =>
      cases k with
      | none => simp only [Op.theKey] at x1; cases x1
      | some k =>
        cases v with
        | none => simp only [Op.theKey, Op.theVal] at x1; cases x1
        | some v =>
          simp only [Op.theKey, Op.theVal] at x1
          cases x1
          simp [storedPairs, opPairs, kvNew]
    all_goals
      repeat' split at x1
      all_goals first | (cases x1; done) | (cases x1; simp [storedPairs])

/-- One message: what its operations store, and what it copies to the end with `hg_adjust`. -/
theorem execute_step {cfg : Config} (hb : cfg.maxEntries ≤ cfg.maxIndex - 65) {s : Codec} (h : CodecOk cfg s)
    {gid : Nat} {ops hops : List Op} {ord : List Int → List Int} {s' : Codec} {out : Dict Str Str}
    (ht : lruToHg cfg s.storage ops = .ok hops) (hr : Runnable s.storage hops)
    (hx : execute cfg ord s ops gid = .ok (s', out)) :
    ∃ gone kept added copied, TableStep cfg s s' gid gone kept added (hops.flatMap (storedPairs s.storage) ++ copied) ∧
      (cfg.hgAdjust = false → copied = []) := by
  have hm := h.findOrMake gid
  have hst := findOrMake_storage s gid
  have hgr := findOrMake_other s gid
  unfold execute at hx
  generalize findOrMake s gid = f at hm hst hgr hx
  obtain ⟨e, x, ⟨y1, y2⟩, a, b, c⟩ := execOps_spec s.storage hops { storage := s.storage } ⟨rfl, rfl⟩ hr.runs
  have a : e.stoggles = hops.flatMap opStog := a.trans (toggle_append (a := []) hr.snodup)
  have hlater := execOps_stores s.storage hops _ e ⟨rfl, rfl⟩ hr.runs x
  simp only [List.map_nil, List.nil_append] at hlater
  have hes : e.storage = { s.storage with counts := e.storage.counts } := by
    obtain ⟨st, _⟩ := e
    cases st
    simp only at y1 y2
    subst y1 y2
    rfl
  obtain ⟨g1, g2⟩ := h.group gid
  have hhg : ∀ i ∈ symDiff (s.group gid) (hops.flatMap opStog), Live s.storage i := by
    intro i hi
    rcases (mem_symDiff hr.snodup).1 hi with ⟨hi, _⟩ | ⟨_, hi⟩
    · exact g2 i hi
    · exact hr.slive i hi
  have hhn : (symDiff (s.group gid) (hops.flatMap opStog)).Nodup := nodup_symDiff g1
  have hso : StorageOk e.storage cfg.maxBytes cfg.maxEntries cfg.maxIndex := by
    rw [hes]
    exact h.storage.counts _
  have hlive : ∀ i, Live e.storage i ↔ Live s.storage i := by
    intro i
    rw [hes]
    exact Iff.rfl
  have hc1 : CodecOk cfg { storage := e.storage, groups := f.groups.set gid (symDiff (s.group gid) (hops.flatMap opStog)) } := by
    have hm' : CodecOk cfg { storage := e.storage, groups := f.groups } := by
      refine ⟨hso, hm.wf, fun g hg => ⟨(hm.groups g hg).1, fun i hi => (hlive i).2 ?_⟩⟩
      rw [← hst]
      exact (hm.groups g hg).2 i hi
    exact hm'.setGroup gid _ hhn fun i hi => (hlive i).2 (hhg i hi)
  have ht0 : TableStep cfg s { storage := e.storage, groups := f.groups.set gid (symDiff (s.group gid) (hops.flatMap opStog)) } gid []
      s.storage.lru.ring [] [] := by
    refine ⟨rfl, by simp [y2], y1, by simp, by simp, by simp, fun _ => ⟨rfl, rfl, by simp [y2, pairBytes]⟩, fun g hg => ?_⟩
    have : f.group g = s.group g := hgr g
    simp only [Codec.group, Dict.get?_set, if_neg (Ne.symm hg)] at this ⊢
    rw [this]
    simp
  obtain ⟨s1, e1, h1⟩ := storeLater_spec hb gid e.later _ hc1
  obtain ⟨ga, ka, aa, p1⟩ := storeLater_step hb h gid e.later _ _ _ _ _ _ hc1 ht0 e1
  rw [hlater, List.nil_append] at p1
  simp only [hst, hgr, ht, x, a, bind, Except.bind] at hx
  split at hx
  · cases hx
  · split at hx
    · cases hx
    · rename_i adj hadj
      simp only [e1] at hx
      split at hx
      · cases hx
      · rename_i s2 e2
        cases hx
        obtain ⟨g3, k3, a3, p3⟩ := adjustLater_step hb h gid adj _ _ _ _ _ _ h1 p1 e2
        refine ⟨g3, k3, a3, _, p3, fun hf => ?_⟩
        simp only [adjustList, hf, Bool.false_eq_true, if_false] at hadj
        cases hadj
        rfl

theorem message_step {cfg : Config} (hc : ConfigOk cfg) {o : Orders} (ho : o.Ok) {s : Codec} (h : CodecOk cfg s)
    (headers : Dict Str Str) (hb : ∀ kv ∈ headers, (∀ c ∈ kv.1, c < 256) ∧ ∀ c ∈ kv.2, c < 256) (gid : Nat) {s' : Codec} {gs : Groups}
    (hgs : makeOperations cfg o s headers gid = .ok (s', gs)) :
    ∃ gone kept added stored copied, TableStep cfg s s' gid gone kept added (stored ++ copied) ∧ (cfg.hgAdjust = false → copied = []) ∧
      stored.Nodup ∧ ∀ x, x ∈ stored ↔ x ∈ headersSet headers ∧ ¬ InTable s.storage x ∧ x.1 ≠ b!":path" := by
  have hm := h.findOrMake gid
  have hst := findOrMake_storage s gid
  obtain ⟨gs0, e1, hgood, hrun, _⟩ := makeInstructions_spec hc.high ho hm headers (headersSet_bytes hb) gid
  have hno := makeInstructions_stores ho hm headers gid e1
  rw [hst] at hgood hrun hno
  obtain ⟨gs', e2, hg2, hback⟩ := hgToLru_spec hc h.storage gs0 hgood
  simp only [makeOperations, bind, Except.bind, e1, hst, e2, execute_make, pure, Except.pure] at hgs
  split at hgs
  · cases hgs
  · rename_i r hr
    obtain ⟨s1, out⟩ := r
    cases hgs
    obtain ⟨g3, k3, a3, cp, p1, p2⟩ := execute_step hc.entries h hback hrun hr
    exact ⟨g3, k3, a3, _, cp, p1, p2, hno⟩

end Verif.Delta2
