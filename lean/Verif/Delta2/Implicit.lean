import Verif.Delta2.OwnGroup
/-
The header group of a message with `implicit_hg_add`.
-/
namespace Verif.Delta2
open Verif

/-- Storing one header: the group only loses entries, and the rest of it means what it did. -/
theorem storeKV_means {cfg : Config} (hb : cfg.maxEntries ≤ cfg.maxIndex - 65) {s : Codec} (h : CodecOk cfg s) {kv : KV} {s' : Codec}
    {r : Option Int} (hx : storeKV cfg s kv = .ok (s', r)) (gid : Nat) :
    (∀ i ∈ s'.group gid, i ∈ s.group gid ∧ kvAt s'.storage i = kvAt s.storage i) ∧
    (∀ i, r = some i → kvAt s'.storage i = (kv.key, kv.val)) ∧
    (Fits cfg s.storage [(kv.key, kv.val)] → s'.groups = s.groups ∧ r ≠ none ∧
      s'.storage.lru.byteSize ≤ s.storage.lru.byteSize + pairBytes [(kv.key, kv.val)] ∧
      s'.storage.lru.ring.length = s.storage.lru.ring.length + 1 ∧ ∀ i, Live s.storage i → kvAt s'.storage i = kvAt s.storage i) := by
  generalize hr : (if cfg.refcntVals then kvShare s.storage.counts kv else kvShareKey s.storage.counts kv kv.val) = q at *
  obtain ⟨st', ps, i, e, hst, hstatic, keep, hring, hcase⟩ := insertVal_spec (h.storage.counts q.1) hb q.2
  simp only [storeKV, hr, bind, Except.bind, e, pure, Except.pure] at hx
  cases hx
  have hq : q.2.key = kv.key ∧ q.2.val = kv.val := by
    rw [← hr]
    split <;> exact ⟨rfl, rfl⟩
  have hring : s.storage.lru.ring = ps ++ keep := hring
  have hstatic : st'.static = s.storage.static := hstatic
  have hsame : ∀ j, Live s.storage j → (∀ e ∈ ps, e.seq ≠ j) → kvAt st' j = kvAt s.storage j := by
    rintro j (⟨h0, hlt⟩ | ⟨e', he', rfl⟩) hps
    · have hlen : j < s.storage.static.ring.length := by rw [h.storage.len]; exact hlt
      unfold kvAt
      unfold lookupFromIdx
      rw [hstatic, if_pos hlen, if_pos hlen]
    · have hk : e' ∈ keep := by
        rw [hring, List.mem_append] at he'
        rcases he' with he' | he'
        · exact absurd rfl (hps e' he')
        · exact he'
      have hk' : e' ∈ st'.lru.ring := by
        rcases hcase with ⟨_, h2⟩ | ⟨_, h2⟩ <;> rw [h2] <;> simp [hk]
      rw [kvAt_ok (lookup_ring hst hk'), kvAt_ok (lookup_ring h.storage he')]
  refine ⟨fun j hj => ?_, fun j hj => ?_, fun hfit => ?_⟩
  · have hj' : j ∈ (s.group gid).filter fun i => ∀ e ∈ ps, e.seq ≠ i := by
      have := removeAll_group ps h.wf gid
      unfold Codec.group at hj ⊢
      rw [← this]
      exact hj
    rw [List.mem_filter] at hj'
    exact ⟨hj'.1, hsame j ((h.group gid).2 j hj'.1) (by simpa using hj'.2)⟩
  · rcases hcase with ⟨hn, _⟩ | ⟨hs, h2⟩
    · rw [hn] at hj
      cases hj
    · rw [hs] at hj
      cases hj
      have hm : (⟨q.2, s.storage.lru.seqNum⟩ : Entry) ∈ st'.lru.ring := by rw [h2]; simp
      have := lookup_ring hst hm
      rw [kvAt_ok this]
      simp [hq]
  · obtain ⟨f1, f2, f3⟩ := hfit
    have hsz := byteSize_le q.1 q.2
    rw [hq.1, hq.2] at hsz
    have hp1 : pairBytes [(kv.key, kv.val)] = (kv.key.length : Int) + kv.val.length := by simp [pairBytes]
    rw [hp1] at f2 ⊢
    simp only [List.length_singleton] at f3
    obtain ⟨i1, i2, i3⟩ := insertVal_room (h.storage.counts q.1) f1 (by simp only; omega) (by simp only; omega) e
    simp only at i3
    subst i1
    refine ⟨rfl, i2, by simp only; omega, ?_, fun j hj => hsame j hj (by simp)⟩
    rcases hcase with ⟨hn, _⟩ | ⟨_, h2⟩
    · exact absurd hn i2
    · simp only
      rw [h2, hring]
      simp

theorem addIdx_mem {s : Codec} {gid : Nat} {r : Option Int} {i : Int} (hi : i ∈ (addIdx s gid r).group gid) :
    i ∈ s.group gid ∨ r = some i := by
  cases r with
  | none => exact .inl hi
  | some j =>
    simp only [addIdx, changeGroup] at hi
    split at hi
    · exact .inl hi
    · rename_i hg hget
      simp only [Codec.group, Dict.get?_set, if_true, Option.getD_some, addSet] at hi
      simp only [Codec.group, hget, Option.getD_some]
      by_cases hj : j ∈ hg
      · rw [if_pos hj] at hi
        exact .inl hi
      rw [if_neg hj] at hi
      rcases List.mem_append.1 hi with hi | hi
      · exact .inl hi
      · exact .inr (by rw [List.mem_singleton.1 hi])

theorem addIdx_some {s : Codec} {gid : Nat} (hg : s.groups.get? gid ≠ none) (j i : Int) :
    (i ∈ (addIdx s gid (some j)).group gid ↔ i ∈ s.group gid ∨ i = j) ∧ (addIdx s gid (some j)).groups.get? gid ≠ none := by
  simp only [addIdx, changeGroup]
  split
  · rename_i h0
    exact absurd h0 hg
  · rename_i l hget
    simp only [Codec.group, Dict.get?_set, if_true, Option.getD_some, hget]
    refine ⟨?_, by simp⟩
    unfold addSet
    split
    · constructor
      · exact .inl
      · rintro (h | rfl) <;> assumption
    · simp

/-- Storing headers: what is in the group afterwards was in it before or is one of them. -/
theorem storeLater_means {cfg : Config} (hb : cfg.maxEntries ≤ cfg.maxIndex - 65) (gid : Nat) (S : Hdr → Prop) (kvs : List KV) :
    ∀ s s' : Codec, CodecOk cfg s → (∀ i ∈ s.group gid, S (kvAt s.storage i)) → (∀ kv ∈ kvs, S (kv.key, kv.val)) →
    storeLater cfg gid kvs s = .ok s' → ∀ i ∈ s'.group gid, S (kvAt s'.storage i) := by
  induction kvs with
  | nil => intro s s' _ hs _ hx; cases hx; exact hs
  | cons kv kvs ih =>
    intro s s' h hs hk hx
    obtain ⟨s1, r, e1, h1, hr⟩ := storeKV_spec h hb kv
    obtain ⟨m1, m2, _⟩ := storeKV_means hb h e1 gid
    simp only [storeLater, bind, Except.bind, e1] at hx
    have hs1 : ∀ i ∈ s1.group gid, S (kvAt s1.storage i) := by
      intro i hi
      obtain ⟨a, b⟩ := m1 i hi
      rw [b]
      exact hs i a
    cases hi : cfg.implicitAdd with
    | true =>
      simp only [hi, if_true] at hx
      refine ih _ _ (h1.addIdx gid r hr) ?_ (fun kv hkv => hk kv (by simp [hkv])) hx
      intro i hi
      rw [addIdx_store]
      rcases addIdx_mem hi with hi | hi
      · exact hs1 i hi
      · rw [m2 i hi]
        exact hk kv (by simp)
    | false =>
      simp only [hi, Bool.false_eq_true, if_false] at hx
      exact ih _ _ h1 hs1 (fun kv hkv => hk kv (by simp [hkv])) hx

/-- With room, and `implicit_hg_add`, all of them are in the group. -/
theorem storeLater_room {cfg : Config} (hb : cfg.maxEntries ≤ cfg.maxIndex - 65) (himp : cfg.implicitAdd = true) (gid : Nat) (kvs : List KV) :
    ∀ s s' : Codec, CodecOk cfg s → s.groups.get? gid ≠ none → Fits cfg s.storage (kvs.map fun kv => (kv.key, kv.val)) →
    storeLater cfg gid kvs s = .ok s' → (∀ i ∈ s.group gid, i ∈ s'.group gid ∧ kvAt s'.storage i = kvAt s.storage i) ∧
      ∀ kv ∈ kvs, ∃ i ∈ s'.group gid, kvAt s'.storage i = (kv.key, kv.val) := by
  induction kvs with
  | nil => intro s s' _ _ _ hx; cases hx; exact ⟨fun i hi => ⟨hi, rfl⟩, by simp⟩
  | cons kv kvs ih =>
    intro s s' h hg hfit hx
    obtain ⟨s1, r, e1, h1, hr⟩ := storeKV_spec h hb kv
    obtain ⟨m1, m2, m3⟩ := storeKV_means hb h e1 gid
    have hfit' : Fits cfg s.storage ([(kv.key, kv.val)] ++ kvs.map fun kv => (kv.key, kv.val)) := hfit
    obtain ⟨k1, k2, k3, k4, k5⟩ := m3 hfit'.before
    obtain ⟨f1, f2, f3⟩ := hfit'
    rw [pairBytes_append] at f2
    simp only [List.length_append, List.length_singleton, List.length_map] at f3
    push_cast at f3
    simp only [storeLater, bind, Except.bind, e1, himp, if_true] at hx
    cases r with
    | none => exact absurd rfl k2
    | some j =>
      have hg1 : s1.groups.get? gid ≠ none := by rw [k1]; exact hg
      have hgr : s1.group gid = s.group gid := by unfold Codec.group; rw [k1]
      obtain ⟨z1, z2⟩ := ih _ _ (h1.addIdx gid _ hr) (addIdx_some hg1 j j).2 (by
        rw [addIdx_store]
        refine ⟨f1, by omega, ?_⟩
        rw [k4]
        simp only [List.length_map]
        push_cast
        omega) hx
      rw [addIdx_store] at z1
      refine ⟨fun i hi => ?_, ?_⟩
      · obtain ⟨a, b⟩ := z1 i ((addIdx_some hg1 j i).1.2 (.inl (hgr ▸ hi)))
        exact ⟨a, b.trans (k5 i ((h.group gid).2 i hi))⟩
      · intro kv' hkv'
        rcases List.mem_cons.1 hkv' with rfl | hkv'
        · obtain ⟨a, b⟩ := z1 j ((addIdx_some hg1 j j).1.2 (.inr rfl))
          exact ⟨j, a, b.trans (m2 j rfl)⟩
        · exact z2 kv' hkv'

/-- One message without `hg_adjust`. -/
theorem execute_means {cfg : Config} (hb : cfg.maxEntries ≤ cfg.maxIndex - 65) (hadj : cfg.hgAdjust = false)
    {s : Codec} (h : CodecOk cfg s) {gid : Nat} {ops hops : List Op} {ord : List Int → List Int} {s' : Codec} {out : Dict Str Str}
    (ht : lruToHg cfg s.storage ops = .ok hops) (hr : Runnable s.storage hops)
    (hx : execute cfg ord s ops gid = .ok (s', out)) :
    (∀ S : Hdr → Prop, (∀ i ∈ symDiff (s.group gid) (hops.flatMap opStog), S (kvAt s.storage i)) →
      (∀ x ∈ hops.flatMap (storedPairs s.storage), S x) → ∀ i ∈ s'.group gid, S (kvAt s'.storage i)) ∧
    (cfg.implicitAdd = true → Fits cfg s.storage (hops.flatMap (storedPairs s.storage)) →
      (∀ i ∈ symDiff (s.group gid) (hops.flatMap opStog), i ∈ s'.group gid ∧ kvAt s'.storage i = kvAt s.storage i) ∧
      ∀ x ∈ hops.flatMap (storedPairs s.storage), ∃ i ∈ s'.group gid, kvAt s'.storage i = x) := by
  have hm := h.findOrMake gid
  have hst := findOrMake_storage s gid
  have hgr := findOrMake_other s gid
  unfold execute at hx
  generalize findOrMake s gid = f at hm hst hgr hx
  obtain ⟨e, x, ⟨y1, y2⟩, a, b, c⟩ := execOps_spec s.storage hops { storage := s.storage } ⟨rfl, rfl⟩ hr.runs
  have a : e.stoggles = hops.flatMap opStog := a.trans (toggle_append (a := []) hr.snodup)
  have hlater := execOps_stores s.storage hops _ e ⟨rfl, rfl⟩ hr.runs x
  simp only [List.map_nil, List.nil_append] at hlater
  have hes : e.storage = { s.storage with counts := e.storage.counts } := by
    obtain ⟨st, _⟩ := e
    cases st
    simp only at y1 y2
    subst y1 y2
    rfl
  obtain ⟨g1, g2⟩ := h.group gid
  have hhg : ∀ i ∈ symDiff (s.group gid) (hops.flatMap opStog), Live s.storage i := by
    intro i hi
    rcases (mem_symDiff hr.snodup).1 hi with ⟨hi, _⟩ | ⟨_, hi⟩
    · exact g2 i hi
    · exact hr.slive i hi
  have hhn : (symDiff (s.group gid) (hops.flatMap opStog)).Nodup := nodup_symDiff g1
  have hso : StorageOk e.storage cfg.maxBytes cfg.maxEntries cfg.maxIndex := by
    rw [hes]
    exact h.storage.counts _
  have hlive : ∀ i, Live e.storage i ↔ Live s.storage i := by
    intro i
    rw [hes]
    exact Iff.rfl
  have hkv : ∀ i, kvAt e.storage i = kvAt s.storage i := by
    intro i
    unfold kvAt lookupFromIdx
    rw [y1, y2]
  have hc1 : CodecOk cfg { storage := e.storage, groups := f.groups.set gid (symDiff (s.group gid) (hops.flatMap opStog)) } := by
    have hm' : CodecOk cfg { storage := e.storage, groups := f.groups } := by
      refine ⟨hso, hm.wf, fun g hg => ⟨(hm.groups g hg).1, fun i hi => (hlive i).2 ?_⟩⟩
      rw [← hst]
      exact (hm.groups g hg).2 i hi
    exact hm'.setGroup gid _ hhn fun i hi => (hlive i).2 (hhg i hi)
  generalize hs0 : ({ storage := e.storage, groups := f.groups.set gid (symDiff (s.group gid) (hops.flatMap opStog)) } : Codec) = s0 at hc1
  have hsto : s0.storage = e.storage := by rw [← hs0]
  have hget : s0.groups.get? gid = some (symDiff (s.group gid) (hops.flatMap opStog)) := by
    rw [← hs0]
    simp only [Dict.get?_set, if_true]
  have hgrp : s0.group gid = symDiff (s.group gid) (hops.flatMap opStog) := by
    unfold Codec.group
    rw [hget]
    rfl
  simp only [hst, hgr, ht, x, a, bind, Except.bind, hs0] at hx
  split at hx
  · cases hx
  · split at hx
    · cases hx
    · rename_i adj hadj'
      simp only [adjustList, hadj, Bool.false_eq_true, if_false] at hadj'
      cases hadj'
      split at hx
      · cases hx
      · rename_i s1 e1
        simp only [adjustLater] at hx
        cases hx
        have hmap : ∀ {p : Hdr → Prop}, (∀ x ∈ hops.flatMap (storedPairs s.storage), p x) ↔ ∀ kv ∈ e.later, p (kv.key, kv.val) := by
          intro p
          rw [← hlater]
          simp
        constructor
        · intro S q1 q2
          refine storeLater_means hb gid S e.later s0 _ hc1 ?_ (hmap.1 q2) e1
          intro i hi
          rw [hgrp] at hi
          rw [hsto, hkv]
          exact q1 i hi
        · intro himp hfit
          obtain ⟨z1, z2⟩ := storeLater_room hb himp gid e.later s0 _ hc1 (by rw [hget]; simp) (by
            rw [hlater, hsto]
            obtain ⟨f1, f2, f3⟩ := hfit
            exact ⟨f1, by rw [y2]; exact f2, by rw [y2]; exact f3⟩) e1
          refine ⟨fun i hi => ?_, hmap.2 z2⟩
          obtain ⟨w1, w2⟩ := z1 i (hgrp ▸ hi)
          exact ⟨w1, by rw [w2, hsto, hkv]⟩

theorem fits_of {cfg : Config} {st : Storage} {l new : List Hdr} (hn : l.Nodup) (h : ∀ x ∈ l, x ∈ new) (hf : Fits cfg st new) :
    Fits cfg st l := by
  obtain ⟨p, hp, hp2⟩ := List.subperm_of_subset hn h
  have hlen : l.length ≤ new.length := by rw [← hp.length_eq]; exact hp2.length_le
  have hby : pairBytes l ≤ pairBytes new := by
    have e1 : pairBytes l = pairBytes p := by
      unfold pairBytes
      exact (hp.symm.map _).sum_eq
    rw [e1]
    exact pairBytes_sublist hp2
  obtain ⟨f1, f2, f3⟩ := hf
  exact ⟨f1, by omega, by omega⟩

/-- The pairs of the group of a message. -/
theorem message_means {cfg : Config} (hc : ConfigOk cfg) (he : cfg.onlyEtoggles = false) (hadj : cfg.hgAdjust = false)
    {o : Orders} (ho : o.Ok) {s : Codec} (h : CodecOk cfg s)
    (headers : Dict Str Str) (hb : ∀ kv ∈ headers, (∀ c ∈ kv.1, c < 256) ∧ ∀ c ∈ kv.2, c < 256) (gid : Nat) {s' : Codec} {gs : Groups}
    (hgs : makeOperations cfg o s headers gid = .ok (s', gs)) :
    (∀ i ∈ s'.group gid, kvAt s'.storage i ∈ headersSet headers) ∧
    (cfg.implicitAdd = true → ∀ new : List Hdr, (∀ x ∈ headersSet headers, ¬ InTable s.storage x → x.1 ≠ b!":path" → x ∈ new) →
      Fits cfg s.storage new → ∀ x ∈ headersSet headers, InTable s.storage x ∨ x.1 ≠ b!":path" →
        ∃ i ∈ s'.group gid, kvAt s'.storage i = x) := by
  have hm := h.findOrMake gid
  have hst := findOrMake_storage s gid
  have hgr := findOrMake_group s gid
  obtain ⟨gs0, e1, hgood, hrun, _⟩ := makeInstructions_spec hc.high ho hm headers (headersSet_bytes hb) gid
  have hx := makeInstructions_group hc.high he ho hm headers (headersSet_bytes hb) gid e1
  obtain ⟨hn, hs⟩ := makeInstructions_stores ho hm headers gid e1
  rw [hst] at hgood hrun hx hn hs
  rw [hgr] at hx
  obtain ⟨gs', e2, hg2, hback⟩ := hgToLru_spec hc h.storage gs0 hgood
  simp only [makeOperations, bind, Except.bind, e1, hst, e2, execute_make, pure, Except.pure] at hgs
  split at hgs
  · cases hgs
  · rename_i r hr
    obtain ⟨s1, out⟩ := r
    cases hgs
    obtain ⟨q1, q2⟩ := execute_means hc.entries hadj h hback hrun hr
    constructor
    · exact q1 (· ∈ headersSet headers) (fun i hi => ((hx _).1 ⟨i, hi, rfl⟩).1) (fun x hx => ((hs x).1 hx).1)
    · intro himp new hnew hfit x hxs hor
      obtain ⟨r1, r2⟩ := q2 himp (fits_of hn (fun x hx => hnew x ((hs x).1 hx).1 ((hs x).1 hx).2.1 ((hs x).1 hx).2.2) hfit)
      by_cases hin : InTable s.storage x
      · obtain ⟨i, hi, hix⟩ := (hx x).2 ⟨hxs, hin⟩
        obtain ⟨a, b⟩ := r1 i hi
        exact ⟨i, a, b.trans hix⟩
      · exact r2 x ((hs x).2 ⟨hxs, hin, hor.resolve_left hin⟩)

end Verif.Delta2
