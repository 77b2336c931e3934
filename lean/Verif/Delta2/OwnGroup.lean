import Verif.Delta2.Size
/-
The header group of a host after one of its messages, in delta2 (for C142).
-/
namespace Verif.Delta2
open Verif

theorem makeAll_noEtoggles {cfg : Config} (he : cfg.onlyEtoggles = false) (st : Storage) (hs : List Hdr) : ∀ m : Made, m.etoggl = [] →
    (hs.foldl (makeOne cfg st) m).etoggl = [] := by
  induction hs with
  | nil => intro m h; exact h
  | cons x hs ih =>
    intro m h
    refine ih _ ?_
    unfold makeOne
    split
    · rw [if_neg (by simp [he])]
      exact h
    · split <;> exact h
    · exact h

theorem sent_pair {st : Storage} {ops : List Op} {new : List Hdr} (h : List.Forall₂ (SentAs st) ops new) :
    ∀ op ∈ ops, ∃ z ∈ new, opPairs st op = [z] := by
  induction h with
  | nil => intro op hop; cases hop
  | @cons a b _ _ hab _ ih =>
    intro op hop
    rcases List.mem_cons.1 hop with rfl | hop
    · exact ⟨b, by simp, hab.1⟩
    · obtain ⟨z, hz, hz'⟩ := ih op hop
      exact ⟨z, by simp [hz], hz'⟩

/-- Without toggles for one message only, the group refers to exactly the headers of the message that have an entry. -/
theorem makeInstructions_group {cfg : Config} (hi : cfg.maxIndex ≤ 2 ^ 16) (he : cfg.onlyEtoggles = false) {o : Orders} (ho : o.Ok)
    {s : Codec} (h : CodecOk cfg s) (headers : Dict Str Str)
    (hb : ∀ x ∈ headersSet headers, (∀ c ∈ x.1, c < 256) ∧ ∀ c ∈ x.2, c < 256) (gid : Nat) {gs : Groups}
    (hgs : makeInstructions cfg o s headers gid = .ok gs) (x : Hdr) :
    (∃ i ∈ symDiff (s.group gid) ((gs.flatMap (·.2)).flatMap opStog), kvAt s.storage i = x) ↔
      x ∈ headersSet headers ∧ InTable s.storage x := by
  obtain ⟨gs0, e0, _, hrun, href⟩ := makeInstructions_spec hi ho h headers hb gid
  rw [hgs] at e0
  cases e0
  obtain ⟨togs, rngs, ops, on, new, off, p1, p2, p3, p4, _, _, _, _, _, _, p11⟩ := makeInstructions_size ho h headers gid hgs
  obtain ⟨g1, g2⟩ := h.group gid
  have hnot : ∀ y ∈ (gs.flatMap (·.2)).flatMap (opPairs s.storage), ¬ InTable s.storage y := by
    intro y hy
    have hy := ((p1.flatMap_right (opPairs s.storage)).mem_iff).1 hy
    rw [List.mem_flatMap] at hy
    obtain ⟨op, hop, hy⟩ := hy
    rcases List.mem_append.1 hop with hop | hop
    · rw [(p2 op hop).2.2.2] at hy
      cases hy
    · rcases List.mem_append.1 hop with hop | hop
      · rw [(p3 op hop).2.2] at hy
        cases hy
      · obtain ⟨z, hz, hzp⟩ := sent_pair p4 op hop
        rw [hzp, List.mem_singleton] at hy
        subst hy
        exact ((p11 _).1 hz).2
  have hnoe : (gs.flatMap (·.2)).flatMap opEtog = [] := by
    simp only [makeInstructions, bind, Except.bind] at hgs
    split at hgs
    · cases hgs
    · rename_i r _
      obtain ⟨hs, done⟩ := r
      simp only at hgs
      have hm := makeAll_noEtoggles he s.storage (o.hset hs) {} rfl
      have hps : ∀ op ∈ ((o.hset hs).foldl (makeOne cfg s.storage) {}).sclone ++ (((o.hset hs).foldl (makeOne cfg s.storage) {}).eclone ++
          ((o.hset hs).foldl (makeOne cfg s.storage) {}).skvsto), opEtog op = [] := by
        have : ∀ (l : List Hdr) (m : Made), (∀ op ∈ m.sclone ++ (m.eclone ++ m.skvsto), opEtog op = []) →
            ∀ op ∈ (l.foldl (makeOne cfg s.storage) m).sclone ++ ((l.foldl (makeOne cfg s.storage) m).eclone ++
              (l.foldl (makeOne cfg s.storage) m).skvsto), opEtog op = [] := by
          intro l
          induction l with
          | nil => intro m h; exact h
          | cons x l ih =>
            intro m h
            refine ih _ ?_
            have hadd : ∀ (op' : Op), opEtog op' = [] → ∀ op, (op ∈ m.sclone ++ (m.eclone ++ m.skvsto) ∨ op = op') → opEtog op = [] := by
              rintro op' h' op (h1 | rfl)
              · exact h op h1
              · exact h'
            unfold makeOne
            split
            · split <;> exact h
            · rename_i k _
              split
              · intro op hop
                refine hadd { opcode := .eclone, index := some k, val := some x.2 } rfl op ?_
                simp only [List.mem_append, List.mem_singleton] at hop ⊢
                tauto
              · intro op hop
                refine hadd { opcode := .sclone, index := some k, val := some x.2 } rfl op ?_
                simp only [List.mem_append, List.mem_singleton] at hop ⊢
                tauto
            · intro op hop
              refine hadd { opcode := .skvsto, key := some x.1, val := some x.2 } rfl op ?_
              simp only [List.mem_append, List.mem_singleton] at hop ⊢
              tauto
        exact this _ _ (by simp)
      generalize (o.hset hs).foldl (makeOne cfg s.storage) {} = m at hgs hm hps
      have f2 : figureOutRanges [] .etrang = .ok ([], []) := rfl
      generalize o.toggl (List.foldl addSet m.stoggls done) = full at hgs
      obtain ⟨ts, rs, f1, _⟩ := figureOutRanges_spec .stoggl .strang full
      have f1' : figureOutRanges (List.map (fun i => ({ opcode := .stoggl, index := some i } : Op)) full) .strang =
        .ok (ts.map (toggle .stoggl), rs.map fun r => range .strang r.1 r.2) := f1
      simp only [hm, f2, f1', pure, Except.pure] at hgs
      cases hgs
      rw [List.flatMap_eq_nil_iff]
      intro op hop
      have hop := ((ho.instr _).flatMap_right (·.2)).subset hop
      simp only [List.flatMap_cons, List.flatMap_nil, List.append_nil, List.nil_append, List.mem_append] at hop
      rcases hop with hop | hop | hop | hop | hop
      · obtain ⟨_, _, rfl⟩ := List.mem_map.1 hop
        rfl
      · exact hps op (by simp [hop])
      · exact hps op (by simp [hop])
      · exact hps op (by simp [hop])
      · obtain ⟨_, _, rfl⟩ := List.mem_map.1 hop
        rfl
  have hrefs : ∀ i, i ∈ refsOf (s.group gid) (gs.flatMap (·.2)) ↔ i ∈ symDiff (s.group gid) ((gs.flatMap (·.2)).flatMap opStog) := by
    intro i
    rw [refsOf, hnoe, mem_symDiff (nodup_symDiff g1)]
    simp
  have hlive : ∀ i ∈ symDiff (s.group gid) ((gs.flatMap (·.2)).flatMap opStog), Live s.storage i := by
    intro i hi
    rcases (mem_symDiff hrun.snodup).1 hi with ⟨hi, _⟩ | ⟨_, hi⟩
    · exact g2 i hi
    · exact hrun.slive i hi
  have key := href x
  simp only [hrefs] at key
  constructor
  · rintro ⟨i, h1, h2⟩
    refine ⟨key.1 (.inr ⟨i, h1, h2⟩), ?_⟩
    rw [← h2]
    exact inTable_of_live h.storage (hlive i h1)
  · rintro ⟨h1, h2⟩
    rcases key.2 h1 with h3 | h3
    · exact absurd h2 (hnot x h3)
    · exact h3

theorem storeLater_any {cfg : Config} (hi : cfg.implicitAdd = false) (gid gid' : Nat) (kvs : List KV) : ∀ s : Codec,
    storeLater cfg gid kvs s = storeLater cfg gid' kvs s := by
  induction kvs with
  | nil => intro s; rfl
  | cons kv kvs ih =>
    intro s
    simp only [storeLater, hi, Bool.false_eq_true, if_false]
    congr 1
    funext r
    obtain ⟨s1, i⟩ := r
    exact ih s1

/-- Without `implicit_hg_add` and `hg_adjust` the group is what the toggles make of it, without the entries that are gone. -/
theorem execute_own {cfg : Config} (hb : cfg.maxEntries ≤ cfg.maxIndex - 65) (hadj : cfg.hgAdjust = false) (himp : cfg.implicitAdd = false)
    {s : Codec} (h : CodecOk cfg s) {gid : Nat} {ops hops : List Op} {ord : List Int → List Int} {s' : Codec} {out : Dict Str Str}
    (ht : lruToHg cfg s.storage ops = .ok hops) (hr : Runnable s.storage hops)
    (hx : execute cfg ord s ops gid = .ok (s', out)) :
    ∃ gone kept added, s.storage.lru.ring = gone ++ kept ∧ s'.storage.lru.ring = kept ++ added ∧ s'.storage.static = s.storage.static ∧
      s'.group gid = (symDiff (s.group gid) (hops.flatMap opStog)).filter fun i => ∀ e ∈ gone, e.seq ≠ i := by
  have hm := h.findOrMake gid
  have hst := findOrMake_storage s gid
  have hgr := findOrMake_other s gid
  unfold execute at hx
  generalize findOrMake s gid = f at hm hst hgr hx
  obtain ⟨e, x, ⟨y1, y2⟩, a, b, c⟩ := execOps_spec s.storage hops { storage := s.storage } ⟨rfl, rfl⟩ hr.runs
  have a : e.stoggles = hops.flatMap opStog := a.trans (toggle_append (a := []) hr.snodup)
  have hes : e.storage = { s.storage with counts := e.storage.counts } := by
    obtain ⟨st, _⟩ := e
    cases st
    simp only at y1 y2
    subst y1 y2
    rfl
  obtain ⟨g1, g2⟩ := h.group gid
  have hhg : ∀ i ∈ symDiff (s.group gid) (hops.flatMap opStog), Live s.storage i := by
    intro i hi
    rcases (mem_symDiff hr.snodup).1 hi with ⟨hi, _⟩ | ⟨_, hi⟩
    · exact g2 i hi
    · exact hr.slive i hi
  have hhn : (symDiff (s.group gid) (hops.flatMap opStog)).Nodup := nodup_symDiff g1
  have hso : StorageOk e.storage cfg.maxBytes cfg.maxEntries cfg.maxIndex := by
    rw [hes]
    exact h.storage.counts _
  have hlive : ∀ i, Live e.storage i ↔ Live s.storage i := by
    intro i
    rw [hes]
    exact Iff.rfl
  have hc1 : CodecOk cfg { storage := e.storage, groups := f.groups.set gid (symDiff (s.group gid) (hops.flatMap opStog)) } := by
    have hm' : CodecOk cfg { storage := e.storage, groups := f.groups } := by
      refine ⟨hso, hm.wf, fun g hg => ⟨(hm.groups g hg).1, fun i hi => (hlive i).2 ?_⟩⟩
      rw [← hst]
      exact (hm.groups g hg).2 i hi
    exact hm'.setGroup gid _ hhn fun i hi => (hlive i).2 (hhg i hi)
  generalize hs0 : ({ storage := e.storage, groups := f.groups.set gid (symDiff (s.group gid) (hops.flatMap opStog)) } : Codec) = s0 at hc1
  have hring : s0.storage.lru.ring = s.storage.lru.ring := by rw [← hs0]; exact congrArg (·.ring) y2
  have hgrp : s0.group gid = symDiff (s.group gid) (hops.flatMap opStog) := by
    rw [← hs0]
    simp only [Codec.group, Dict.get?_set, if_true, Option.getD_some]
  have ht0 : TableStep cfg s0 s0 (gid + 1) [] s0.storage.lru.ring [] [] :=
    ⟨rfl, by simp, rfl, by simp, by simp, by simp, fun _ => ⟨rfl, rfl, by simp [pairBytes]⟩, fun g hg => by simp⟩
  simp only [hst, hgr, ht, x, a, bind, Except.bind, hs0] at hx
  split at hx
  · cases hx
  · split at hx
    · cases hx
    · rename_i adj hadj'
      simp only [adjustList, hadj, Bool.false_eq_true, if_false] at hadj'
      cases hadj'
      split at hx
      · cases hx
      · rename_i s1 e1
        simp only [adjustLater] at hx
        cases hx
        rw [storeLater_any himp gid (gid + 1)] at e1
        obtain ⟨ga, ka, aa, p1⟩ := storeLater_step hb hc1 (gid + 1) e.later _ _ _ _ _ _ hc1 ht0 e1
        refine ⟨ga, ka, aa, hring ▸ p1.old, p1.new, ?_, ?_⟩
        · rw [p1.static, ← hs0]
          exact y1
        · rw [p1.groups gid (by omega), hgrp]

theorem message_group {cfg : Config} (hc : ConfigOk cfg) (he : cfg.onlyEtoggles = false) (hadj : cfg.hgAdjust = false)
    (himp : cfg.implicitAdd = false) {o : Orders} (ho : o.Ok) {s : Codec} (h : CodecOk cfg s)
    (headers : Dict Str Str) (hb : ∀ kv ∈ headers, (∀ c ∈ kv.1, c < 256) ∧ ∀ c ∈ kv.2, c < 256) (gid : Nat) {s' : Codec} {gs : Groups}
    (hgs : makeOperations cfg o s headers gid = .ok (s', gs)) :
    ∃ gone kept added, s.storage.lru.ring = gone ++ kept ∧ s'.storage.lru.ring = kept ++ added ∧ s'.storage.static = s.storage.static ∧
      (s'.group gid).Nodup ∧ (∀ i ∈ s'.group gid, Live s.storage i ∧ kvAt s.storage i ∈ headersSet headers ∧ ∀ e ∈ gone, e.seq ≠ i) ∧
      ∀ x, x ∈ headersSet headers → InTable s.storage x → ∃ i, Live s.storage i ∧ kvAt s.storage i = x ∧
        (i ∈ s'.group gid ∨ ∃ e ∈ gone, e.seq = i) := by
  have hm := h.findOrMake gid
  have hst := findOrMake_storage s gid
  have hgr := findOrMake_group s gid
  obtain ⟨gs0, e1, hgood, hrun, _⟩ := makeInstructions_spec hc.high ho hm headers (headersSet_bytes hb) gid
  have hx := makeInstructions_group hc.high he ho hm headers (headersSet_bytes hb) gid e1
  rw [hst] at hgood hrun hx
  rw [hgr] at hx
  obtain ⟨gs', e2, hg2, hback⟩ := hgToLru_spec hc h.storage gs0 hgood
  simp only [makeOperations, bind, Except.bind, e1, hst, e2, execute_make, pure, Except.pure] at hgs
  split at hgs
  · cases hgs
  · rename_i r hr
    obtain ⟨s1, out⟩ := r
    cases hgs
    obtain ⟨gone, kept, added, q1, q2, q3, q4⟩ := execute_own hc.entries hadj himp h hback hrun hr
    obtain ⟨g1, g2⟩ := h.group gid
    have hlive : ∀ i ∈ symDiff (s.group gid) ((gs0.flatMap (·.2)).flatMap opStog), Live s.storage i := by
      intro i hi
      rcases (mem_symDiff hrun.snodup).1 hi with ⟨hi, _⟩ | ⟨_, hi⟩
      · exact g2 i hi
      · exact hrun.slive i hi
    refine ⟨gone, kept, added, q1, q2, q3, ?_, ?_, ?_⟩
    · rw [q4]
      exact (nodup_symDiff g1).filter _
    · intro i hi
      rw [q4, List.mem_filter] at hi
      refine ⟨hlive i hi.1, ((hx _).1 ⟨i, hi.1, rfl⟩).1, ?_⟩
      simpa using hi.2
    · intro x x1 x2
      obtain ⟨i, hi, hix⟩ := (hx x).2 ⟨x1, x2⟩
      refine ⟨i, hlive i hi, hix, ?_⟩
      by_cases hg : ∃ e ∈ gone, e.seq = i
      · exact .inr hg
      · refine .inl ?_
        rw [q4, List.mem_filter]
        refine ⟨hi, ?_⟩
        simp only [decide_eq_true_eq]
        intro e he hc
        exact hg ⟨e, he, hc⟩

theorem makeAll_noStoggles {cfg : Config} (he : cfg.onlyEtoggles = true) (st : Storage) (hs : List Hdr) : ∀ m : Made, m.stoggls = [] →
    (hs.foldl (makeOne cfg st) m).stoggls = [] := by
  induction hs with
  | nil => intro m h; exact h
  | cons x hs ih =>
    intro m h
    refine ih _ ?_
    unfold makeOne
    split
    · rw [if_pos he]
      exact h
    · split <;> exact h
    · exact h

/-- With `only_etoggles` and an empty group nothing is toggled in the group. -/
theorem makeInstructions_noStog {cfg : Config} (he : cfg.onlyEtoggles = true) {o : Orders} (ho : o.Ok) {s : Codec} (h : CodecOk cfg s)
    (headers : Dict Str Str) (gid : Nat) (hg : s.group gid = []) {gs : Groups}
    (hgs : makeInstructions cfg o s headers gid = .ok gs) : (gs.flatMap (·.2)).flatMap opStog = [] := by
  have hnil : ∀ l : List Int, l.Perm [] → l = [] := fun l hl => List.Perm.eq_nil hl
  have h1 : hgLoop s.storage (o.hg (s.group gid)) (headersSet headers) [] = .ok (headersSet headers, []) := by
    rw [hg, hnil _ (ho.hg [])]
    rfl
  obtain ⟨is, hm⟩ := makeAll_spec (cfg := cfg) h.storage (o.hset (headersSet headers)) ((ho.hset _).nodup_iff.2 (nodup_headersSet headers))
  have hst := makeAll_noStoggles he s.storage (o.hset (headersSet headers)) {} rfl
  simp only [makeInstructions, bind, Except.bind, h1] at hgs
  generalize (o.hset (headersSet headers)).foldl (makeOne cfg s.storage) {} = m at hgs hm hst
  obtain ⟨ts', rs', f2, _⟩ := figureOutRanges_spec .etoggl .etrang is
  have f1 : figureOutRanges [] .strang = .ok ([], []) := rfl
  simp only [hm.etoggl, hst, List.foldl_nil, hnil _ (ho.toggl []), List.map_nil, f1, f2, pure, Except.pure] at hgs
  cases hgs
  rw [List.flatMap_eq_nil_iff]
  intro op hop
  have hop := ((ho.instr _).flatMap_right (·.2)).subset hop
  simp only [List.flatMap_cons, List.flatMap_nil, List.append_nil, List.nil_append, List.mem_append] at hop
  rcases hop with hop | hop | hop | hop | hop
  · obtain ⟨_, _, rfl⟩ := List.mem_map.1 hop
    rfl
  · obtain ⟨_, _, _, _, _, rfl⟩ := hm.sclone op hop
    rfl
  · obtain ⟨_, _, _, _, _, rfl⟩ := hm.eclone op hop
    rfl
  · obtain ⟨_, _, rfl⟩ := hm.skvsto op hop
    rfl
  · obtain ⟨_, _, rfl⟩ := List.mem_map.1 hop
    rfl

theorem message_noGroup {cfg : Config} (hc : ConfigOk cfg) (he : cfg.onlyEtoggles = true) (hadj : cfg.hgAdjust = false)
    (himp : cfg.implicitAdd = false) {o : Orders} (ho : o.Ok) {s : Codec} (h : CodecOk cfg s)
    (headers : Dict Str Str) (hb : ∀ kv ∈ headers, (∀ c ∈ kv.1, c < 256) ∧ ∀ c ∈ kv.2, c < 256) (gid : Nat) (hg : s.group gid = [])
    {s' : Codec} {gs : Groups} (hgs : makeOperations cfg o s headers gid = .ok (s', gs)) : s'.group gid = [] := by
  have hm := h.findOrMake gid
  have hst := findOrMake_storage s gid
  have hgr := findOrMake_group s gid
  obtain ⟨gs0, e1, hgood, hrun, _⟩ := makeInstructions_spec hc.high ho hm headers (headersSet_bytes hb) gid
  have hx := makeInstructions_noStog he ho hm headers gid (by rw [hgr]; exact hg) e1
  rw [hst] at hgood hrun
  obtain ⟨gs', e2, hg2, hback⟩ := hgToLru_spec hc h.storage gs0 hgood
  simp only [makeOperations, bind, Except.bind, e1, hst, e2, execute_make, pure, Except.pure] at hgs
  split at hgs
  · cases hgs
  · rename_i r hr
    obtain ⟨s1, out⟩ := r
    cases hgs
    obtain ⟨gone, kept, added, _, _, _, q4⟩ := execute_own hc.entries hadj himp h hback hrun hr
    rw [q4, hx, hg]
    rfl

end Verif.Delta2
