import Verif.DeltaBohe.AdjustLemmas
/-
delta_bohe: one message.
-/
namespace Verif.DeltaBohe
open Verif Verif.Bits Verif.Huff Verif.Bohe

/-- The generation of the header group in a message. -/
def gen (c : Codec) : Nat := c.generation.getD 0

/-- The state when the headers are looked at. -/
def opened (c : Codec) (headers : List Hdr) : Codec :=
  (knownKeys c headers).foldl (fun c k => refCnt c k 1) { c with lru := c.lru ++ [none], generation := some (gen c) }

/-- The state before the entries are renumbered. -/
def closed (known : List Str) (c : Codec) : Codec :=
  let c := unpin (known.foldl (fun c k => refCnt c k (-1)) c)
  { c with generation := c.generation.map (· + 1) }

/-- Headers that are not stored, those with known names first. -/
def news (c : Codec) (es : List Hdr) : List Hdr :=
  (es.filter fun kv => decide (kv ∉ c.entries.map VE.kv) && (keyOf c kv.1).isSome) ++ es.filter fun kv => (keyOf c kv.1).isNone

/-- The operations for a message. -/
def instrs (ord : List VE → List VE) (c : Codec) (headers es : List Hdr) : Instrs :=
  { toggl := es.filterMap (toggleOf c) ++ turnOffs ord (mapE (touch (gen c) es) (opened c headers))
    clone := es.filterMap (cloneOf c)
    kvsto := es.filterMap (kvstoOf c) }

theorem opened_same (c : Codec) (headers : List Hdr) :
    SameBut { c with lru := c.lru ++ [none], generation := some (gen c) } (opened c headers) := refCnts_same 1 _ _

theorem opened_entries (c : Codec) (headers : List Hdr) : (opened c headers).entries = c.entries := by
  rw [(opened_same c headers).entries]
  simp [Codec.entries]

theorem opened_key (c : Codec) (headers : List Hdr) (k : Str) : keyOf (opened c headers) k = keyOf c k :=
  (opened_same c headers).key k

theorem opened_core {c : Codec} (h : Core c) (headers : List Hdr) : Core (opened c headers) := by
  refine (opened_same c headers).core ?_
  have he : ({ c with lru := c.lru ++ [none], generation := some (gen c) } : Codec).entries = c.entries := by
    simp [Codec.entries]
  exact ⟨by rw [he]; exact h.idx, by rw [he]; exact h.idxLe, by rw [he]; exact h.kv, by rw [he]; exact h.keys, h.keyIdx, h.keyLe,
    by rw [he]; exact h.num⟩

theorem opened_rest (c : Codec) (headers : List Hdr) : (opened c headers).statics = c.statics ∧
    (opened c headers).lru = c.lru ++ [none] ∧ (opened c headers).keyIdx = c.keyIdx ∧ (opened c headers).nextKey = c.nextKey ∧
    (opened c headers).nextLru = c.nextLru ∧ (opened c headers).stateSize = c.stateSize ∧ (opened c headers).numVals = c.numVals ∧
    (opened c headers).generation = some (gen c) := by
  obtain ⟨⟨km, e⟩, -⟩ := opened_same c headers
  rw [e]
  exact ⟨rfl, rfl, rfl, rfl, rfl, rfl, rfl, rfl⟩

theorem opened_of (c : Codec) (headers : List Hdr) : toggleOf (opened c headers) = toggleOf c ∧
    cloneOf (opened c headers) = cloneOf c ∧ kvstoOf (opened c headers) = kvstoOf c := by
  have h1 : ∀ k v, findVal (opened c headers) k v = findVal c k v := by
    intro k v; unfold findVal; rw [opened_entries]
  refine ⟨?_, ?_, ?_⟩
  · funext kv; simp only [toggleOf, h1]
  · funext kv; simp only [cloneOf, h1, opened_key]
  · funext kv; simp only [kvstoOf, opened_key]

theorem Inv.gen {c : Codec} (h : Inv c) (e : VE) (he : e ∈ c.entries) : e.gen ≠ some (gen c) := by
  intro hg
  obtain ⟨g, h1, h2⟩ := h.gens e he _ hg
  simp [DeltaBohe.gen, h1] at h2

theorem clones_eq (c : Codec) (es : List Hdr) : es.filterMap (cloneOf c) =
    (es.filter fun kv => decide (kv ∉ c.entries.map VE.kv) && (keyOf c kv.1).isSome).map fun kv =>
      ((keyOf c kv.1).getD 0, kv.2, decide (kv.1 ∉ encoderNames)) := by
  induction es with
  | nil => rfl
  | cons kv es ih =>
    have h1 : cloneOf c kv = if decide (kv ∉ c.entries.map VE.kv) && (keyOf c kv.1).isSome then
        some ((keyOf c kv.1).getD 0, kv.2, decide (kv.1 ∉ encoderNames)) else none := by
      unfold cloneOf
      cases hf : findVal c kv.1 kv.2 with
      | some e =>
        obtain ⟨he, hk⟩ := findVal_some hf
        have : kv ∈ c.entries.map VE.kv := List.mem_map.2 ⟨e, he, hk⟩
        simp only [this, not_true_eq_false, decide_false, Bool.false_and, Bool.false_eq_true, if_false]
      | none =>
        have : kv ∉ c.entries.map VE.kv := findVal_none.1 hf
        cases hk : keyOf c kv.1 with
        | none => simp
        | some i => simp only [this, not_false_eq_true, decide_true, Bool.true_and, Option.isSome_some, if_true, Option.map_some, Option.getD_some]
    rw [List.filterMap_cons, h1, List.filter_cons, ih]
    split <;> rename_i hh
    · split at hh
      · cases hh
      · next hn => rw [if_neg hn]
    · split at hh
      · next hn => rw [if_pos hn]; cases hh; rfl
      · cases hh

theorem kvstos_eq (c : Codec) (es : List Hdr) : es.filterMap (kvstoOf c) =
    (es.filter fun kv => (keyOf c kv.1).isNone).map fun kv => (kv.1, kv.2, decide (kv.1 ∉ encoderNames)) := by
  induction es with
  | nil => rfl
  | cons kv es ih =>
    rw [List.filterMap_cons, List.filter_cons, ih]
    unfold kvstoOf
    cases hk : keyOf c kv.1 <;> simp

theorem mem_news {c : Codec} (h : Core c) (es : List Hdr) (kv : Hdr) : kv ∈ news c es ↔ kv ∈ es ∧ kv ∉ c.entries.map VE.kv := by
  have h1 : keyOf c kv.1 = none → kv ∉ c.entries.map VE.kv := by
    intro hn hm
    obtain ⟨e, he, rfl⟩ := List.mem_map.1 hm
    have := h.keys e he
    rw [show e.key = e.kv.1 from rfl, hn] at this
    cases this
  unfold news
  rw [List.mem_append, List.mem_filter, List.mem_filter]
  cases hk : keyOf c kv.1 with
  | none => simp only [Option.isSome_none, Bool.and_false, Bool.false_eq_true, and_false, Option.isNone_none, and_true, false_or]; exact ⟨fun h => ⟨h, h1 hk⟩, fun h => h.1⟩
  | some i => simp only [Option.isSome_some, Bool.and_true, decide_eq_true_eq, Option.isNone_some, Bool.false_eq_true, and_false, or_false]

theorem news_nodup {c : Codec} {es : List Hdr} (hn : es.Nodup) : (news c es).Nodup := by
  unfold news
  refine List.Nodup.append (hn.filter _) (hn.filter _) ?_
  intro kv h1 h2
  have h1 := List.of_mem_filter h1
  have h2 := List.of_mem_filter h2
  cases hk : keyOf c kv.1 <;> simp_all

/-- A message, up to storing the new headers and renumbering. -/
theorem make_eq {L : Libs} {ord : List VE → List VE} (ho : ∀ l, (ord l).Perm l) {c : Codec} (h : Inv c) {headers es : List Hdr}
    (hes : sentList L headers = .ok es) (hn : es.Nodup) :
    makeOperations L ord c headers =
      (storeAll (news c es) (mapE (setGen (gen c) es) (opened c headers))).bind fun c2 =>
        .ok (adjust (closed (knownKeys c headers) c2), instrs ord c headers es) := by
  have hcore := opened_core h.core headers
  have hgen := (opened_rest c headers).2.2.2.2.2.2.2
  obtain ⟨ot, oc, ok⟩ := opened_of c headers
  have hpin : pin c = .ok { c with lru := c.lru ++ [none] } := by simp only [pin, if_neg h.nopin]
  have hopen : (knownKeys (findOrMake { c with lru := c.lru ++ [none] }) headers).foldl (fun c k => refCnt c k 1)
      (findOrMake { c with lru := c.lru ++ [none] }) = opened c headers := rfl
  have hknown : knownKeys (findOrMake { c with lru := c.lru ++ [none] }) headers = knownKeys c headers := rfl
  unfold makeOperations
  simp only [hpin, bind, Except.bind]
  rw [hopen, hknown, headersLoop_eq L headers hcore hgen, hes]
  simp only [Except.bind]
  rw [processAll_spec es hcore hgen, ot, oc, ok]
  simp only [List.nil_append]
  unfold executeInstrs
  have htog := toggled hcore hgen (fun e he => h.gen e (by rwa [opened_entries] at he)) hn ho
  rw [ot] at htog
  simp only [bind, Except.bind, htog]
  rw [clones_eq, kvstos_eq, cloneAll_eq _ (fun kv => rfl)]
  · unfold news instrs
    rw [storeAll_append]
    simp only [Except.bind]
    cases e1 : storeAll (es.filter fun kv => decide (kv ∉ c.entries.map VE.kv) && (keyOf c kv.1).isSome)
        (mapE (setGen (gen c) es) (opened c headers)) with
    | error e => rfl
    | ok c2 =>
      simp only
      rw [kvstoAll_eq _ (fun kv => rfl)]
      cases e2 : storeAll (es.filter fun kv => (keyOf c kv.1).isNone) c2 with
      | error e => rfl
      | ok c3 => simp only [pure, Except.pure, closed, clones_eq, kvstos_eq]
  · intro kv hkv
    have := List.of_mem_filter hkv
    cases hk : keyOf c kv.1 with
    | none => rw [hk] at this; simp at this
    | some i =>
      exact hcore.keyIdx kv.1 i (by rw [opened_key]; exact hk)

theorem make_error {L : Libs} {ord : List VE → List VE} {c : Codec} (h : Inv c) {headers : List Hdr} {e : PyErr}
    (hes : sentList L headers = .error e) : makeOperations L ord c headers = .error e := by
  have hcore := opened_core h.core headers
  have hgen := (opened_rest c headers).2.2.2.2.2.2.2
  have hpin : pin c = .ok { c with lru := c.lru ++ [none] } := by simp only [pin, if_neg h.nopin]
  have hopen : (knownKeys (findOrMake { c with lru := c.lru ++ [none] }) headers).foldl (fun c k => refCnt c k 1)
      (findOrMake { c with lru := c.lru ++ [none] }) = opened c headers := rfl
  unfold makeOperations
  simp only [hpin, bind, Except.bind]
  rw [hopen, headersLoop_eq L headers hcore hgen, hes]
  rfl

/-! ### Enough room -/

/-- What a message for whose new headers there is room does. -/
structure Made (c : Codec) (es : List Hdr) (c' : Codec) : Prop where
  inv : Inv c'
  sized : Sized c → Sized c'
  kvs : ∀ kv, kv ∈ c'.entries.map VE.kv ↔ kv ∈ c.entries.map VE.kv ∨ kv ∈ es
  group : ∀ kv, (∃ e ∈ c'.entries, e.gen.isSome ∧ e.kv = kv) ↔ kv ∈ es
  late : ∀ e ∈ c'.entries, e.gen.isSome → c.nextLru < e.idx
  next : c'.nextLru = c.nextLru + (news c es).length + es.length
  num : c'.numVals = c.numVals + (news c es).length
  gen : c'.generation = some (gen c + 1)
  names : ∀ k, k ∈ c'.keyMap.keys ↔ k ∈ c.keyMap.keys ∨ k ∈ es.map (·.1)
  size : c.stateSize ≤ c'.stateSize
  fits : ∀ kv ∈ es, kv ∉ c.entries.map VE.kv → c.stateSize + kv.2.length ≤ maxStateSize
  bound : news c es ≠ [] → c'.stateSize ≤ maxStateSize

theorem mem_filterMap_id (l : List (Option VE)) : (l.filter (·.isSome)).filterMap id = l.filterMap id := by
  induction l with
  | nil => rfl
  | cons x l ih =>
    cases x with
    | none => exact ih
    | some e => exact congrArg (e :: ·) ih

theorem closed_entries (known : List Str) (c : Codec) : (closed known c).entries = c.entries := by
  rw [← (refCnts_same (-1) known c).entries]
  show _ ++ (List.filter _ _).filterMap id = _ ++ List.filterMap id _
  rw [mem_filterMap_id]
  rfl

theorem closed_rest (known : List Str) (c : Codec) : (closed known c).nextLru = c.nextLru ∧
    (closed known c).numVals = c.numVals ∧ (closed known c).stateSize = c.stateSize ∧
    (closed known c).generation = c.generation.map (· + 1) ∧ (∀ k, keyOf (closed known c) k = keyOf c k) ∧
    (closed known c).keyMap.keys = c.keyMap.keys ∧ none ∉ (closed known c).lru ∧ (closed known c).keyIdx = c.keyIdx ∧
    (closed known c).nextKey = c.nextKey := by
  obtain ⟨⟨km, e⟩, hk, hkk⟩ := refCnts_same (-1) known c
  refine ⟨?_, ?_, ?_, ?_, fun k => ?_, ?_, ?_, ?_, ?_⟩
  · simp [closed, unpin, e]
  · simp [closed, unpin, e]
  · simp [closed, unpin, e]
  · simp [closed, unpin, e]
  · exact hk k
  · exact hkk
  · simp [closed, unpin]
  · simp [closed, unpin, e]
  · simp [closed, unpin, e]

theorem closed_core {known : List Str} {c : Codec} (h : Core c) : Core (closed known c) := by
  obtain ⟨h1, h2, h3, h4, h5, h6, h7, h8, h9⟩ := closed_rest known c
  have he := closed_entries known c
  exact ⟨by rw [he]; exact h.idx, by rw [he, h1]; exact h.idxLe, by rw [he]; exact h.kv, by rw [he]; simp only [h5]; exact h.keys,
    by simp only [h5, h8]; exact h.keyIdx, by rw [h8, h9]; exact h.keyLe, by rw [he, h2]; exact h.num⟩

theorem setGen_idx (g : Nat) (hs : List Hdr) (e : VE) : (setGen g hs e).idx = e.idx := rfl
theorem setGen_kv (g : Nat) (hs : List Hdr) (e : VE) : (setGen g hs e).kv = e.kv := rfl

theorem adjust_full {c : Codec} (h : Core c) (hp : none ∉ c.lru) : Core (adjust c) ∧ none ∉ (adjust c).lru ∧
    (∃ f : Nat → Nat, (adjust c).entries.Perm (c.entries.map fun e => { e with idx := f e.idx }) ∧
      ∀ e ∈ c.entries, e.gen.isSome → c.nextLru < f e.idx) ∧
    (adjust c).nextLru = c.nextLru + (c.entries.filter fun e => e.gen.isSome).length ∧
    (adjust c).keyMap = c.keyMap ∧ (adjust c).stateSize = c.stateSize ∧ (adjust c).numVals = c.numVals ∧
    (adjust c).generation = c.generation := by
  obtain ⟨is, h1, h2, h3, h4, h5⟩ := adjust_spec h
  have hle : ∀ i ∈ is, i ≤ c.nextLru := by
    intro i hi
    obtain ⟨e, he, -, rfl⟩ := (h2 i).1 hi
    exact h.idxLe e he
  obtain ⟨r1, r2, r3, r4, r5, r6, r7, r8⟩ := renumberAll_spec is h h1 hle
  rw [h5, ← h4]
  refine ⟨r1, r2 hp, ⟨newIdx is c.nextLru, r3, fun e he hg => ?_⟩, r5, r4, r6, r7, r8⟩
  have : e.idx ∈ is := (h2 _).2 ⟨e, he, hg, rfl⟩
  simp only [newIdx, this, if_true]
  omega

/-- A message with room for its new headers. -/
theorem make_spec {L : Libs} {ord : List VE → List VE} (ho : ∀ l, (ord l).Perm l) {c : Codec} (h : Inv c) {headers es : List Hdr}
    (hes : sentList L headers = .ok es) (hn : es.Nodup) (hcap : c.numVals + (news c es).length ≤ maxVals) :
    (makeOperations L ord c headers = .error .name ∧ ∃ names, names ≠ [] ∧ names.Sublist ((news c es).map (·.1)) ∧ ∃ kv ∈ news c es,
      maxStateSize < c.stateSize + ((names.filter fun x => (keyOf c x).isNone).dedup.map List.length).sum + kv.2.length) ∨
    ∃ c', makeOperations L ord c headers = .ok (c', instrs ord c headers es) ∧ Made c es c' := by
  rw [make_eq ho h hes hn]
  have hc1 := (opened_core h.core headers).mapE (setGen_idx (gen c) es) (setGen_kv (gen c) es)
  obtain ⟨o1, o2, o3, o4, o5, o6, o7, o8⟩ := opened_rest c headers
  have hkv : (mapE (setGen (gen c) es) (opened c headers)).entries.map VE.kv = c.entries.map VE.kv := by
    rw [entries_mapE, opened_entries, List.map_map]; rfl
  have hkey : ∀ x, keyOf (mapE (setGen (gen c) es) (opened c headers)) x = keyOf c x := opened_key c headers
  have hst : (mapE (setGen (gen c) es) (opened c headers)).stateSize = c.stateSize := o6
  have hsz : Sized c → Sized (mapE (setGen (gen c) es) (opened c headers)) := by
    rintro ⟨h1, h2⟩
    have hk := (opened_same c headers).keys
    refine ⟨?_, ?_⟩
    · show ((opened c headers).keyMap.keys).Nodup
      rw [hk]; exact h1
    · show (opened c headers).stateSize = _
      rw [o6, h2]
      show nameSize c = (((((opened c headers).keyMap.keys).map List.length).sum : Nat) : Int)
      rw [hk]; rfl
  rcases storeAll_spec (g := gen c) (news c es) hc1 o8 (by show (opened c headers).numVals + _ ≤ _; rw [o7]; exact hcap) (news_nodup hn)
    (fun kv hm => by rw [hkv]; exact ((mem_news h.core es kv).1 hm).2) with ⟨e1, names, hne, hsub, kv, hkv', hlt⟩ | ⟨c2, e1, hs⟩
  · left
    refine ⟨by rw [e1]; rfl, names, hne, hsub, kv, hkv', ?_⟩
    rw [hst] at hlt
    simp only [hkey] at hlt
    exact hlt
  · right
    have hcl := closed_core (known := knownKeys c headers) hs.core
    have hce := closed_entries (knownKeys c headers) c2
    obtain ⟨p1, p2, p3, p4, p5, p6, p7, -, -⟩ := closed_rest (knownKeys c headers) c2
    obtain ⟨a1, a2, ⟨f, a3, a3'⟩, a4, a5, a6, a7, a8⟩ := adjust_full hcl p7
    have hent : c2.entries = c.entries.map (setGen (gen c) es) ++ mkEntries (gen c) c.nextLru (news c es) := by
      rw [hs.entries, entries_mapE, opened_entries]
      congr 2
    have hgen2 : c2.generation = some (gen c) := hs.gen
    -- the group
    have hgrp : ∀ e ∈ c2.entries, e.gen.isSome ↔ e.kv ∈ es := by
      intro e he
      rw [hent, List.mem_append] at he
      rcases he with he | he
      · obtain ⟨x, hx, rfl⟩ := List.mem_map.1 he
        rw [setGen_kv]
        unfold setGen
        split <;> simp_all
      · rw [mkEntries_gen _ _ _ e he]
        have : e.kv ∈ (mkEntries (gen c) c.nextLru (news c es)).map VE.kv := List.mem_map.2 ⟨e, he, rfl⟩
        rw [mkEntries_kv] at this
        simp [((mem_news h.core es _).1 this).1]
    have hkvs2 : c2.entries.map VE.kv = c.entries.map VE.kv ++ news c es := by
      rw [hent, List.map_append, List.map_map, mkEntries_kv]
      rfl
    have hin : ∀ kv, kv ∈ c2.entries.map VE.kv ↔ kv ∈ c.entries.map VE.kv ∨ kv ∈ es := by
      intro kv
      rw [hkvs2, List.mem_append, mem_news h.core]
      constructor
      · rintro (h1 | h1)
        · exact Or.inl h1
        · exact Or.inr h1.1
      · rintro (h1 | h1)
        · exact Or.inl h1
        · by_cases h2 : kv ∈ c.entries.map VE.kv
          · exact Or.inl h2
          · exact Or.inr ⟨h1, h2⟩
    have hcnt : (c2.entries.filter fun e => e.gen.isSome).length = es.length := by
      have : ((c2.entries.filter fun e => e.gen.isSome).map VE.kv).Perm es := by
        rw [List.perm_ext_iff_of_nodup ((List.filter_sublist.map VE.kv).nodup hs.core.kv) hn]
        intro kv
        simp only [List.mem_map, List.mem_filter]
        constructor
        · rintro ⟨e, ⟨h1, h2⟩, rfl⟩
          exact (hgrp e h1).1 h2
        · intro hm
          obtain ⟨e, he, rfl⟩ := List.mem_map.1 ((hin kv).2 (Or.inr hm))
          exact ⟨e, ⟨he, (hgrp e he).2 hm⟩, rfl⟩
      rw [← this.length_eq, List.length_map]
    have hmem : ∀ e, e ∈ (adjust (closed (knownKeys c headers) c2)).entries ↔ ∃ x ∈ c2.entries, { x with idx := f x.idx } = e := by
      intro e
      rw [a3.mem_iff, hce]
      exact List.mem_map
    refine ⟨_, by rw [e1]; rfl, ?_⟩
    have hn2 : c2.nextLru = c.nextLru + (news c es).length := by
      rw [hs.next]
      show (opened c headers).nextLru + _ = _
      rw [o5]
    have hkv' : ∀ kv, kv ∈ (adjust (closed (knownKeys c headers) c2)).entries.map VE.kv ↔ kv ∈ c2.entries.map VE.kv := by
      intro kv
      simp only [List.mem_map, hmem]
      constructor
      · rintro ⟨e, ⟨x, hx, rfl⟩, rfl⟩; exact ⟨x, hx, rfl⟩
      · rintro ⟨x, hx, rfl⟩; exact ⟨_, ⟨x, hx, rfl⟩, rfl⟩
    refine ⟨⟨a1, a2, ?_⟩, fun hz => ?_, fun kv => (hkv' kv).trans (hin kv), ?_, ?_, ?_, ?_, ?_, ?_, ?_, ?_, ?_⟩
    · intro e he n hg
      obtain ⟨x, hx, rfl⟩ := (hmem e).1 he
      rw [a8, p4, hgen2]
      refine ⟨gen c + 1, rfl, ?_⟩
      simp only at hg
      rw [hent, List.mem_append] at hx
      rcases hx with hx | hx
      · obtain ⟨y, hy, rfl⟩ := List.mem_map.1 hx
        unfold setGen at hg
        simp only at hg
        split at hg
        · cases hg; omega
        · cases hg
      · rw [mkEntries_gen _ _ _ x hx] at hg
        cases hg; omega
    · have := hs.sized (hsz hz)
      refine ⟨?_, ?_⟩
      · rw [a5]; show (closed (knownKeys c headers) c2).keyMap.keys.Nodup; rw [p6]; exact this.wf
      · rw [a6, p3, this.size]
        unfold nameSize
        rw [a5, p6]
    · intro kv
      constructor
      · rintro ⟨e, he, hg, rfl⟩
        obtain ⟨x, hx, rfl⟩ := (hmem e).1 he
        exact (hgrp x hx).1 hg
      · intro hm
        obtain ⟨x, hx, rfl⟩ := List.mem_map.1 ((hin kv).2 (Or.inr hm))
        exact ⟨_, (hmem _).2 ⟨x, hx, rfl⟩, (hgrp x hx).2 hm, rfl⟩
    · intro e he hg
      obtain ⟨x, hx, rfl⟩ := (hmem e).1 he
      have := a3' x (by rw [hce]; exact hx) hg
      rw [p1, hn2] at this
      simp only
      omega
    · rw [a4, p1, hce, hcnt, hn2]
    · rw [a7, p2, hs.num]
      show (opened c headers).numVals + _ = _
      rw [o7]
    · rw [a8, p4, hgen2]; rfl
    · intro k
      rw [a5, mem_keyMap, mem_keyMap]
      show (keyOf (closed (knownKeys c headers) c2) k).isSome ↔ _
      rw [p5, hs.key, hkey]
      constructor
      · rintro (h1 | h1)
        · exact Or.inl h1
        · obtain ⟨kv, hm, rfl⟩ := List.mem_map.1 h1
          exact Or.inr (List.mem_map.2 ⟨kv, ((mem_news h.core es kv).1 hm).1, rfl⟩)
      · rintro (h1 | h1)
        · exact Or.inl h1
        · obtain ⟨kv, hm, rfl⟩ := List.mem_map.1 h1
          by_cases h2 : kv ∈ c.entries.map VE.kv
          · obtain ⟨e, he, rfl⟩ := List.mem_map.1 h2
            exact Or.inl (h.core.keys e he)
          · exact Or.inr (List.mem_map.2 ⟨kv, (mem_news h.core es kv).2 ⟨hm, h2⟩, rfl⟩)
    · rw [a6, p3, ← hst]; exact hs.size
    · intro kv hm hnm
      rw [← hst]
      exact hs.fits kv ((mem_news h.core es kv).2 ⟨hm, hnm⟩)
    · intro hne
      rw [a6, p3]; exact hs.bound hne

end Verif.DeltaBohe
