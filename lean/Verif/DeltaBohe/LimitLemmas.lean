import Verif.DeltaBohe.SessionLemmas
/-
delta_bohe: what happens at the limits.
-/
namespace Verif.DeltaBohe
open Verif Verif.Bits Verif.Bits.Spec Verif.Huff Verif.Bohe

/-! ### A full table -/

theorem sent_state {c : Codec} (headers es : List Hdr) :
    (mapE (setGen (gen c) es) (opened c headers)).lru = (c.lru ++ [none]).map (Option.map (setGen (gen c) es)) ∧
    (mapE (setGen (gen c) es) (opened c headers)).statics = c.statics.map (setGen (gen c) es) ∧
    (mapE (setGen (gen c) es) (opened c headers)).numVals = c.numVals ∧
    (mapE (setGen (gen c) es) (opened c headers)).generation = some (gen c) ∧
    (mapE (setGen (gen c) es) (opened c headers)).nextLru = c.nextLru ∧
    (mapE (setGen (gen c) es) (opened c headers)).entries = c.entries.map (setGen (gen c) es) ∧
    (∀ x, keyOf (mapE (setGen (gen c) es) (opened c headers)) x = keyOf c x) := by
  obtain ⟨⟨km, e⟩, -⟩ := opened_same c headers
  refine ⟨?_, ?_, ?_, ?_, ?_, ?_, opened_key c headers⟩
  · simp [mapE, e]
  · simp [mapE, e]
  · simp [mapE, e]
  · simp [mapE, e]
  · simp [mapE, e]
  · rw [entries_mapE, opened_entries]

/-- In a full table without anything in the header group nothing can be stored. -/
theorem store_full {c : Codec} (h : Core c) (hnum : c.numVals = 1024) {ve : VE} {rest : List (Option VE)} (hl : c.lru = some ve :: rest)
    (hgen : c.generation.isSome) (hg : ∀ e ∈ c.entries, e.gen = none) {k v : Str} (hnew : (k, v) ∉ c.entries.map VE.kv) :
    ((keyOf c k).isNone ∧ storeEntry c k v = .error .name) ∨ storeEntry c k v = .error .type := by
  unfold storeEntry insertVal
  rcases findOrAddKey_spec h (by unfold maxVals; omega) k with ⟨e1, h1, -⟩ | ⟨c1, e1, -, ⟨km, ki, n, z, rfl⟩, -⟩
  · left
    refine ⟨by rw [h1]; rfl, ?_⟩
    simp only [e1, bind, Except.bind]
  · right
    have hf : findVal { c with keyMap := km, keyIdx := ki, nextKey := n, stateSize := z } k v = none := findVal_none.2 hnew
    simp only [e1, bind, Except.bind, hf, Option.isSome_none, Bool.false_eq_true, if_false]
    obtain ⟨r1, r2, r3, r4, r5, r6, r7, r8⟩ := refCnt_rest { c with keyMap := km, keyIdx := ki, nextKey := n, stateSize := z } k 1
    generalize refCnt { c with keyMap := km, keyIdx := ki, nextKey := n, stateSize := z } k 1 = R at *
    have hpop : makeSpace R (List.length v) 1 = .error .type := by
      unfold makeSpace
      rw [r6, if_pos (by simp only [hnum]; decide)]
      unfold popOne
      rw [r2]
      simp only [hl, r7]
      rw [if_pos]
      refine ⟨hgen, ?_⟩
      unfold groupEmpty
      rw [List.all_eq_true]
      intro e he
      simp only [Codec.entries, r1, List.filterMap_cons, id] at he
      rw [List.mem_append, List.mem_cons] at he
      have hin : ∀ e, e ∈ c.statics ∨ e ∈ rest.filterMap id → e ∈ c.entries := by
        intro e he
        simp only [Codec.entries, hl, List.filterMap_cons, id]
        rw [List.mem_append, List.mem_cons]
        rcases he with he | he
        · exact .inl he
        · exact .inr (.inr he)
      rcases he with he | rfl | he
      · rw [hg e (hin e (.inl he))]; rfl
      · rfl
      · rw [hg e (hin e (.inr he))]; rfl
    rw [hpop]

/-- A full table: a message of new headers only is refused. -/
theorem make_full {L : Libs} {ord : List VE → List VE} (ho : ∀ l, (ord l).Perm l) {c : Codec} (h : Inv c) {headers es : List Hdr}
    (hes : sentList L headers = .ok es) (hn : es.Nodup) (hne : es ≠ []) (hnew : ∀ kv ∈ es, kv ∉ c.entries.map VE.kv)
    (hnum : c.numVals = 1024) (hl : c.lru ≠ []) :
    makeOperations L ord c headers = .error .type ∨
      ((∃ kv ∈ es, (keyOf c kv.1).isNone) ∧ makeOperations L ord c headers = .error .name) := by
  rw [make_eq ho h hes hn]
  obtain ⟨s1, s2, s3, s4, s5, s6, s7⟩ := sent_state (c := c) headers es
  have hcore : Core (mapE (setGen (gen c) es) (opened c headers)) := (opened_core h.core headers).mapE (setGen_idx _ _) (setGen_kv _ _)
  obtain ⟨kv, rest, hnews⟩ : ∃ kv rest, news c es = kv :: rest := by
    cases hq : news c es with
    | nil =>
      obtain ⟨kv, hkv⟩ := List.exists_mem_of_ne_nil es hne
      have := (mem_news h.core es kv).2 ⟨hkv, hnew kv hkv⟩
      rw [hq] at this
      cases this
    | cons kv rest => exact ⟨kv, rest, rfl⟩
  have hkv : kv ∈ es := news_sub (c := c) (by rw [hnews]; simp)
  obtain ⟨ve, r, hve⟩ : ∃ ve r, (mapE (setGen (gen c) es) (opened c headers)).lru = some ve :: r := by
    rw [s1]
    cases hq : c.lru with
    | nil => exact absurd hq hl
    | cons x l =>
      cases x with
      | none => exact absurd (by rw [hq]; simp) h.nopin
      | some e => exact ⟨_, _, rfl⟩
  have := store_full (k := kv.1) (v := kv.2) hcore (by rw [s3]; exact hnum) hve (by rw [s4]; rfl) (fun e he => by
    rw [s6] at he
    obtain ⟨x, hx, rfl⟩ := List.mem_map.1 he
    unfold setGen
    rw [if_neg (fun hm => hnew _ hm (List.mem_map.2 ⟨x, hx, rfl⟩))]) (fun hm => by
    rw [s6, List.map_map] at hm
    exact hnew kv hkv hm)
  rw [s7] at this
  rw [hnews]
  simp only [storeAll, bind, Except.bind]
  rcases this with ⟨h1, e⟩ | e
  · right
    exact ⟨⟨kv, hkv, h1⟩, by rw [e]⟩
  · left
    rw [e]

/-! ### The order of values -/

theorem closed_lru (known : List Str) (c : Codec) : (closed known c).lru = c.lru.filter (·.isSome) := by
  obtain ⟨⟨km, e⟩, -⟩ := refCnts_same (-1) known c
  simp [closed, unpin, e]

/-- A message of one new header: it is put at the end. -/
theorem single_order {L : Libs} {ord : List VE → List VE} (ho : ∀ l, (ord l).Perm l) {c : Codec} (h : Inv c) {headers : List Hdr} {kv : Hdr}
    (hes : sentList L headers = .ok [kv]) (hnew : kv ∉ c.entries.map VE.kv) (hcap : c.numVals + 1 ≤ maxVals)
    {c' : Codec} {g : Instrs} (hm : makeOperations L ord c headers = .ok (c', g)) :
    c'.lru.map (Option.map VE.kv) = c.lru.map (Option.map VE.kv) ++ [some kv] := by
  rw [make_eq ho h hes (by simp)] at hm
  obtain ⟨s1, s2, s3, s4, s5, s6, s7⟩ := sent_state (c := c) headers [kv]
  have hcore : Core (mapE (setGen (gen c) [kv]) (opened c headers)) := (opened_core h.core headers).mapE (setGen_idx _ _) (setGen_kv _ _)
  have hnews : news c [kv] = [kv] := by
    have h1 : ∀ x, x ∈ news c [kv] ↔ x ∈ [kv] := by
      intro x
      rw [mem_news h.core]
      constructor
      · exact fun h => h.1
      · intro hx
        rw [List.mem_singleton] at hx
        subst hx
        exact ⟨by simp, hnew⟩
    have h2 : (news c [kv]).Perm [kv] := (List.perm_ext_iff_of_nodup (news_nodup (by simp)) (by simp)).2 h1
    exact List.perm_singleton.1 h2
  rw [hnews] at hm
  have hkvs : (mapE (setGen (gen c) [kv]) (opened c headers)).entries.map VE.kv = c.entries.map VE.kv := by
    rw [s6, List.map_map]; rfl
  rcases storeAll_spec (g := gen c) [kv] hcore s4 (by rw [s3]; simpa using hcap) (by simp)
      (by intro x hx; rw [List.mem_singleton] at hx; subst hx; rw [hkvs]; exact hnew) with ⟨e, -⟩ | ⟨c2, e, hst⟩
  · rw [e] at hm; cases hm
  · rw [e] at hm
    cases hm
    have hlru : (closed (knownKeys c headers) c2).lru = c.lru.map (Option.map (setGen (gen c) [kv])) ++
        [some ⟨c.nextLru + 1, kv.1, kv.2, some (gen c)⟩] := by
      rw [closed_lru, hst.lru, s1, s5]
      simp only [List.map_append, List.filter_append, List.map_cons, List.map_nil, Option.map_none, mkEntries]
      have : ∀ l : List (Option VE), none ∉ l → (l.map (Option.map (setGen (gen c) [kv]))).filter (·.isSome) = l.map (Option.map (setGen (gen c) [kv])) := by
        intro l hl
        rw [List.filter_eq_self]
        intro x hx
        obtain ⟨y, hy, rfl⟩ := List.mem_map.1 hx
        cases y with
        | none => exact absurd hy hl
        | some e => rfl
      rw [this _ h.nopin]
      simp
    have hent : (closed (knownKeys c headers) c2).entries = c.entries.map (setGen (gen c) [kv]) ++ [⟨c.nextLru + 1, kv.1, kv.2, some (gen c)⟩] := by
      rw [closed_entries, hst.entries, s6, s5]
      rfl
    have hgrp : ((closed (knownKeys c headers) c2).entries.filter fun ve => ve.gen.isSome) = [⟨c.nextLru + 1, kv.1, kv.2, some (gen c)⟩] := by
      rw [hent, List.filter_append]
      have : (c.entries.map (setGen (gen c) [kv])).filter (fun ve => ve.gen.isSome) = [] := by
        rw [List.filter_eq_nil_iff]
        intro x hx
        obtain ⟨e, he, rfl⟩ := List.mem_map.1 hx
        unfold setGen
        rw [if_neg]
        · simp
        · intro hx
          rw [List.mem_singleton] at hx
          exact hnew (by rw [← hx]; exact List.mem_map.2 ⟨e, he, rfl⟩)
      rw [this]
      rfl
    have hadj : adjust (closed (knownKeys c headers) c2) = renumber (closed (knownKeys c headers) c2) (c.nextLru + 1) := by
      unfold adjust
      rw [hgrp]
      rfl
    rw [hadj]
    have hren : ∀ (x : Codec) (i : Nat), (renumber x i).lru.map (Option.map VE.kv) =
        (x.lru.filter (fun y => !isIdx i y) ++ x.lru.filter (isIdx i)).map (Option.map VE.kv) := by
      intro x i
      have h1 : (renumber x i).lru = (x.lru.filter (fun y => !isIdx i y) ++ x.lru.filter (isIdx i)).map
          (Option.map (reidx i (x.nextLru + 1))) := rfl
      rw [h1, List.map_map]
      refine List.map_congr_left fun y _ => ?_
      cases y with
      | none => rfl
      | some e => simp [reidx_kv]
    rw [hren, hlru]
    have hno : ∀ x ∈ c.lru.map (Option.map (setGen (gen c) [kv])), isIdx (c.nextLru + 1) x = false := by
      intro x hx
      obtain ⟨y, hy, rfl⟩ := List.mem_map.1 hx
      cases y with
      | none => rfl
      | some e =>
        have : e ∈ c.entries := by simp [Codec.entries, hy]
        have := h.core.idxLe e this
        have h2 : isIdx (c.nextLru + 1) (some (setGen (gen c) [kv] e)) = isIdx (c.nextLru + 1) (some e) := rfl
        rw [Option.map_some, h2]
        simp only [isIdx, decide_eq_false_iff_not]
        omega
    have hf1 : (c.lru.map (Option.map (setGen (gen c) [kv]))).filter (fun y => !isIdx (c.nextLru + 1) y) = c.lru.map (Option.map (setGen (gen c) [kv])) :=
      List.filter_eq_self.2 (fun x hx => by rw [hno x hx]; rfl)
    have hf2 : (c.lru.map (Option.map (setGen (gen c) [kv]))).filter (isIdx (c.nextLru + 1)) = [] :=
      List.filter_eq_nil_iff.2 (fun x hx => by rw [hno x hx]; simp)
    rw [List.filter_append, List.filter_append, hf1, hf2]
    have hyes : isIdx (c.nextLru + 1) (some (⟨c.nextLru + 1, kv.1, kv.2, some (gen c)⟩ : VE)) = true := by simp [isIdx]
    simp only [List.filter_cons, hyes, Bool.not_true, Bool.false_eq_true, if_false, if_true, List.filter_nil, List.append_nil,
      List.nil_append, List.map_append, List.map_map, List.map_cons, List.map_nil]
    congr 1
    refine List.map_congr_left fun y _ => ?_
    cases y with
    | none => rfl
    | some e => rfl

/-! ### A header that is dropped while it is sent -/

/-- Storing in a full table drops the oldest value, even if it belongs to the message. -/
theorem make_drops {L : Libs} {ord : List VE → List VE} (ho : ∀ l, (ord l).Perm l) {c : Codec} (h : Inv c) {headers es : List Hdr}
    (hes : sentList L headers = .ok es) (hn : es.Nodup) (hnum : c.numVals = 1024) {ve : VE} {rest : List (Option VE)} (hl : c.lru = some ve :: rest)
    {kv : Hdr} (hnews : news c es = [kv]) (hkey : (keyOf c kv.1).isSome) {e : VE} (he : e ∈ c.entries) (hkv : e.kv ∈ es) (hne : e.idx ≠ ve.idx) :
    ∃ c', makeOperations L ord c headers = .ok (c', instrs ord c headers es) ∧ ve.kv ∉ c'.entries.map VE.kv := by
  rw [make_eq ho h hes hn, hnews]
  obtain ⟨s1, s2, s3, s4, s5, s6, s7⟩ := sent_state (c := c) headers es
  have hcore : Core (mapE (setGen (gen c) es) (opened c headers)) := (opened_core h.core headers).mapE (setGen_idx _ _) (setGen_kv _ _)
  have hnew : kv ∉ c.entries.map VE.kv := ((mem_news h.core es kv).1 (by rw [hnews]; simp)).2
  generalize mapE (setGen (gen c) es) (opened c headers) = D at *
  have hDl : D.lru = some (setGen (gen c) es ve) :: (rest ++ [none]).map (Option.map (setGen (gen c) es)) := by rw [s1, hl]; simp
  have hDnew : (kv.1, kv.2) ∉ D.entries.map VE.kv := by rw [s6, List.map_map]; exact hnew
  have hkeyD : findOrAddKey D kv.1 = .ok D := by
    unfold findOrAddKey
    rw [has_key, s7, if_pos hkey]
  obtain ⟨r1, r2, r3, r4, r5, r6, r7, r8⟩ := refCnt_rest D kv.1 1
  have hve : ve ∈ c.entries := by simp [Codec.entries, hl]
  have hpop : ∃ c2, makeSpace (refCnt D kv.1 1) (List.length kv.2) 1 = .ok c2 := by
    unfold makeSpace
    rw [r6, s3, if_pos (by rw [hnum]; decide)]
    unfold popOne
    rw [r2, hDl]
    simp only
    refine ⟨_, if_neg ?_⟩
    rintro ⟨-, hem⟩
    unfold groupEmpty at hem
    rw [List.all_eq_true] at hem
    have hin : setGen (gen c) es e ∈ D.statics ++ ((rest ++ [none]).map (Option.map (setGen (gen c) es))).filterMap id := by
      have : setGen (gen c) es e ∈ D.entries := by rw [s6]; exact List.mem_map.2 ⟨e, he, rfl⟩
      simp only [Codec.entries, hDl, List.filterMap_cons, id] at this
      rw [List.mem_append, List.mem_cons] at this
      rw [List.mem_append]
      rcases this with h1 | h1 | h1
      · exact .inl h1
      · have := congrArg VE.idx h1
        exact absurd this hne
      · exact .inr h1
    have := hem (setGen (gen c) es e) (by
      simp only [Codec.entries, r1, List.filterMap_cons, id]
      rw [List.mem_append, List.mem_cons]
      rcases List.mem_append.1 hin with h1 | h1
      · exact .inl h1
      · exact .inr (.inr h1))
    simp [setGen, hkv] at this
  obtain ⟨c2, ec2⟩ := hpop
  have hst : ∃ c4, storeEntry D kv.1 kv.2 = .ok c4 ∧ c4.entries.map VE.kv = c2.entries.map VE.kv ++ [kv] := by
    unfold storeEntry insertVal
    simp only [hkeyD, bind, Except.bind, findVal_none.2 hDnew, Option.isSome_none, Bool.false_eq_true, if_false, ec2, pure, Except.pure]
    obtain ⟨q1, q2, q3, q4, q5, q6, q7, q8⟩ := refCnt_rest { c2 with numVals := c2.numVals + 1 } kv.1 (-1)
    have hg2 : c2.generation = some (gen c) := by
      rw [(makeSpace_core ((refCnt_same D kv.1 1).core hcore) ec2).gen, r7, s4]
    generalize refCnt { c2 with numVals := c2.numVals + 1 } kv.1 (-1) = R at *
    have hg3 : R.generation = some (gen c) := by rw [q7]; exact hg2
    simp only [hg3]
    refine ⟨_, rfl, ?_⟩
    simp [Codec.entries, q1, q2, VE.kv]
  obtain ⟨c4, ec4, hkv4⟩ := hst
  simp only [storeAll, bind, Except.bind, ec4]
  refine ⟨_, rfl, ?_⟩
  obtain ⟨hc4, -⟩ := storeEntry_core hcore ec4
  obtain ⟨-, -, ⟨f, hp, -⟩, -⟩ := adjust_full (closed_core (known := knownKeys c headers) hc4) (by
    rw [closed_lru]
    intro hm
    cases List.of_mem_filter hm)
  intro hm
  obtain ⟨x, hx, hxe⟩ := List.mem_map.1 hm
  obtain ⟨y, hy, rfl⟩ := List.mem_map.1 (hp.mem_iff.1 hx)
  rw [closed_entries] at hy
  have h1 : ve.kv ∈ c4.entries.map VE.kv := List.mem_map.2 ⟨y, hy, hxe⟩
  rw [hkv4, List.mem_append, List.mem_singleton] at h1
  rcases h1 with h1 | h1
  · -- the rest of the queue
    unfold makeSpace at ec2
    rw [r6, s3, if_pos (by rw [hnum]; decide)] at ec2
    rcases popOne_perm ec2 with rfl | ⟨ve', rest', p0, p1, p2, -⟩
    · -- something was dropped
      exfalso
      unfold popOne at ec2
      rw [r2, hDl] at ec2
      simp only at ec2
      split at ec2
      · cases ec2
      · have hlen := congrArg (fun r : Py Codec => r.toOption.map (·.lru.length)) ec2
        have : ∀ (a : Codec) (b : VE) (l : List (Option VE)), (removeVal a b l).lru = l := by
          intro a b l
          unfold removeVal
          simp only
          split <;> rfl
        simp only [Except.toOption, Option.map_some, this, r2, hDl] at hlen
        simp at hlen
    · rw [r2, hDl] at p0
      cases p0
      have hnd := hcore.kv
      have hperm : D.entries.Perm (setGen (gen c) es ve :: c2.entries) := by
        simp only [Codec.entries, hDl, p1, p2, r1, List.filterMap_cons, id]
        exact List.perm_middle
      rw [(hperm.map VE.kv).nodup_iff, List.map_cons, List.nodup_cons] at hnd
      exact hnd.1 h1
  · exact hnew (by rw [← h1]; exact List.mem_map.2 ⟨ve, hve, rfl⟩)

/-! ### Repetitions -/

/-- Something is stored already, or twice. -/
theorem storeAll_dup {g : Nat} (kvs : List Hdr) : ∀ {c : Codec} (_ : Core c) (_ : c.generation = some g)
    (_ : c.numVals + kvs.length ≤ maxVals) (_ : ¬ kvs.Nodup ∨ ∃ kv ∈ kvs, kv ∈ c.entries.map VE.kv),
    storeAll kvs c = .error .name ∨ storeAll kvs c = .error .standard := by
  induction kvs with
  | nil => intro c _ _ _ h; rcases h with h | ⟨kv, hkv, -⟩; exacts [absurd .nil h, by cases hkv]
  | cons kv kvs ih =>
    intro c h hg hcap hd
    simp only [List.length_cons] at hcap
    push_cast at hcap
    simp only [storeAll, bind, Except.bind]
    rcases storeEntry_spec h hg (by omega) kv.1 kv.2 with ⟨e, -⟩ | ⟨e, -⟩ | ⟨c', e, hn, hst⟩
    · exact .inr (by rw [e])
    · exact .inl (by rw [e])
    · rw [e]
      refine ih hst.core hst.gen (by rw [hst.num]; omega) ?_
      have hent := entries_append c _ c' hst.statics hst.lru
      rcases hd with hd | ⟨x, hx, hxs⟩
      · rw [List.nodup_cons, not_and_or] at hd
        rcases hd with hd | hd
        · right
          exact ⟨kv, by simpa using hd, by rw [hent, List.map_append]; simp [VE.kv]⟩
        · exact .inl hd
      · rcases List.mem_cons.1 hx with rfl | hx
        · exact absurd hxs hn
        · right
          exact ⟨x, hx, by rw [hent, List.map_append]; exact List.mem_append_left _ hxs⟩

/-- A header with a known name that is not stored and occurs twice. -/
theorem make_dup {L : Libs} {ord : List VE → List VE} (ho : ∀ l, (ord l).Perm l) {c : Codec} (h : Inv c) {headers es : List Hdr}
    (hes : sentList L headers = .ok es) {kv : Hdr} (hdup : 2 ≤ es.count kv) (hnew : kv ∉ c.entries.map VE.kv) (hkey : (keyOf c kv.1).isSome)
    (hcap : c.numVals + es.length ≤ maxVals) :
    makeOperations L ord c headers = .error .name ∨ makeOperations L ord c headers = .error .standard := by
  have hcore := opened_core h.core headers
  have hgen := (opened_rest c headers).2.2.2.2.2.2.2
  obtain ⟨ot, oc, ok⟩ := opened_of c headers
  have hpin : pin c = .ok { c with lru := c.lru ++ [none] } := by simp only [pin, if_neg h.nopin]
  have hopen : (knownKeys (findOrMake { c with lru := c.lru ++ [none] }) headers).foldl (fun c k => refCnt c k 1)
      (findOrMake { c with lru := c.lru ++ [none] }) = opened c headers := rfl
  unfold makeOperations
  simp only [hpin, bind, Except.bind]
  rw [hopen, headersLoop_eq L headers hcore hgen, hes]
  simp only [Except.bind]
  rw [processAll_spec es hcore hgen, ot, oc, ok]
  simp only [List.nil_append]
  unfold executeInstrs
  set D := mapE (touch (gen c) es) (opened c headers) with hD
  have hDc : Core D := hcore.mapE (touch_idx _ _) (touch_kv _ _)
  have hDi : D.entries.map (·.idx) = c.entries.map (·.idx) := by
    rw [hD, entries_mapE, opened_entries, List.map_map]
    exact List.map_congr_left fun e _ => touch_idx _ _ e
  have hmem : ∀ i ∈ es.filterMap (toggleOf c) ++ turnOffs ord D, i ∈ D.entries.map (·.idx) := by
    intro i hi
    rcases List.mem_append.1 hi with hi | hi
    · obtain ⟨e, he, rfl, -⟩ := (mem_toggles h.core es i).1 hi
      rw [hDi]
      exact List.mem_map.2 ⟨e, he, rfl⟩
    · obtain ⟨e, he, rfl, -⟩ := (mem_turnOffs ho D i).1 hi
      exact List.mem_map.2 ⟨e, he, rfl⟩
  have htog := toggleAll_spec _ hDc hgen hmem
  simp only [bind, Except.bind, htog]
  set E := mapE (fun e => flips (gen c) ((es.filterMap (toggleOf c) ++ turnOffs ord D).count e.idx) e) D with hE
  have hEc : Core E := hDc.mapE (flips_idx' _ _) (flips_kv' _ _)
  have hEk : ∀ x, keyOf E x = keyOf c x := opened_key c headers
  rw [clones_eq, cloneAll_eq _ (fun kv => rfl)]
  · have hnd : ¬ (es.filter fun kv => decide (kv ∉ c.entries.map VE.kv) && (keyOf c kv.1).isSome).Nodup := by
      intro hnd
      rw [List.nodup_iff_count_le_one] at hnd
      have := hnd kv
      rw [List.count_filter (by simp only [hnew, hkey, not_false_eq_true, decide_true, Bool.and_self])] at this
      omega
    have hlen : (es.filter fun kv => decide (kv ∉ c.entries.map VE.kv) && (keyOf c kv.1).isSome).length ≤ es.length := List.length_filter_le _ _
    have hnum : E.numVals = c.numVals := (opened_rest c headers).2.2.2.2.2.2.1
    rcases storeAll_dup (g := gen c) _ hEc hgen (by rw [hnum]; omega) (.inl hnd) with e | e
    · left; rw [e]
    · right; rw [e]
  · intro x hx
    have := List.of_mem_filter hx
    cases hk : keyOf c x.1 with
    | none => rw [hk] at this; simp at this
    | some i =>
      exact hEc.keyIdx x.1 i (by rw [hEk]; exact hk)

/-! ### Indices only grow -/

/-- An entry of the header group with a large index cannot be switched off. -/
theorem compress_big {L : Libs} {h : Huffman} {c : Codec} (hi : Inv c) {m : Message} (ho : ∀ l, (m.ord l).Perm l) {es : List Hdr}
    (hes : sentList L m.headers = .ok es) (hn : es.Nodup) (hcap : c.numVals + (news c es).length ≤ maxVals) {e : VE} (he : e ∈ c.entries)
    (hg : e.gen.isSome) (hkv : e.kv ∉ es) (hbig : 2 ^ 16 ≤ e.idx) :
    compress L h c m = .error .name ∨ compress L h c m = .error .standard ∨ compress L h c m = .error .struct := by
  simp only [compress, bind, Except.bind]
  rcases make_spec ho hi hes hn hcap with ⟨e1, -⟩ | ⟨c', e1, -⟩
  · left; rw [e1]
  · right
    rw [e1]
    simp only
    have : ∃ i ∈ (instrs m.ord c m.headers es).toggl, ¬ i < 2 ^ 16 := by
      refine ⟨e.idx, List.mem_append_right _ ?_, by omega⟩
      rw [mem_turnOffs ho, entries_mapE, opened_entries]
      refine ⟨_, List.mem_map.2 ⟨e, he, rfl⟩, touch_idx _ _ _, by rwa [touch_isSome], ?_⟩
      have hgen := (opened_rest c m.headers).2.2.2.2.2.2.2
      show (touch (gen c) es e).gen ≠ (opened c m.headers).generation
      unfold touch
      rw [if_neg fun hx => hkv hx.1, hgen]
      exact hi.gen e he
    rcases wire_fails h this with e2 | e2
    · left; rw [e2]
    · right; rw [e2]

/-- A message again. -/
theorem instrs_again {c : Codec} (hi : Inv c) {ord : List VE → List VE} (ho : ∀ l, (ord l).Perm l) {headers es : List Hdr}
    (hg : ∀ kv, (∃ e ∈ c.entries, e.gen.isSome ∧ e.kv = kv) ↔ kv ∈ es) : instrs ord c headers es = {} ∧ news c es = [] := by
  have hst : ∀ kv ∈ es, kv ∈ c.entries.map VE.kv := by
    intro kv hkv
    obtain ⟨e, he, -, rfl⟩ := (hg kv).2 hkv
    exact List.mem_map.2 ⟨e, he, rfl⟩
  have hkn : ∀ kv ∈ es, (keyOf c kv.1).isSome := by
    intro kv hkv
    obtain ⟨e, he, -, rfl⟩ := (hg kv).2 hkv
    exact hi.core.keys e he
  have h1 : es.filterMap (toggleOf c) = [] := by
    rw [List.eq_nil_iff_forall_not_mem]
    intro i him
    obtain ⟨e, he, -, h2, h3⟩ := (mem_toggles hi.core es i).1 him
    obtain ⟨e', he', h4, h5⟩ := (hg _).2 h2
    rw [hi.core.kv_inj he' he h5, h3] at h4
    cases h4
  have h2 : turnOffs ord (mapE (touch (gen c) es) (opened c headers)) = [] := by
    rw [List.eq_nil_iff_forall_not_mem]
    intro i him
    obtain ⟨x, hx, -, h3, h4⟩ := (mem_turnOffs ho _ i).1 him
    rw [entries_mapE, opened_entries] at hx
    obtain ⟨e, he, rfl⟩ := List.mem_map.1 hx
    rw [touch_isSome] at h3
    have := (hg e.kv).1 ⟨e, he, h3, rfl⟩
    refine h4 ?_
    have hgen := (opened_rest c headers).2.2.2.2.2.2.2
    show _ = (opened c headers).generation
    unfold touch
    rw [if_pos ⟨this, h3⟩, hgen]
  have h3 : (es.filter fun kv => decide (kv ∉ c.entries.map VE.kv) && (keyOf c kv.1).isSome) = [] := by
    rw [List.filter_eq_nil_iff]
    intro kv hkv
    simp [hst kv hkv]
  have h4 : (es.filter fun kv => (keyOf c kv.1).isNone) = [] := by
    rw [List.filter_eq_nil_iff]
    intro kv hkv
    have := hkn kv hkv
    cases hk : keyOf c kv.1 with
    | none => rw [hk] at this; cases this
    | some i => simp
  refine ⟨?_, ?_⟩
  · unfold instrs
    rw [h1, h2, clones_eq, kvstos_eq, h3, h4]
    rfl
  · unfold news
    rw [h3, h4]
    rfl

end Verif.DeltaBohe
