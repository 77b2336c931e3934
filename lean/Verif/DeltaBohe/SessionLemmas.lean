import Verif.DeltaBohe.SimLemmas
import Verif.DeltaBohe.InitLemmas
import Verif.DeltaBohe.WireLemmas
/-
delta_bohe: sessions.
-/
namespace Verif.DeltaBohe
open Verif Verif.Bits Verif.Bits.Spec Verif.Huff Verif.Bohe

/-! ### The order of indices -/

theorem popOne_next {c c' : Codec} (h : popOne c = .ok c') : c'.nextKey = c.nextKey ∧ c'.nextLru = c.nextLru := by
  rcases popOne_perm h with rfl | ⟨ve, rest, h0, h1, h2, h3, h4, h5, h6, h7, h8⟩
  · exact ⟨rfl, rfl⟩
  · exact ⟨h5, h6⟩

theorem makeSpace_next {c c' : Codec} {n : Nat} {a : Int} (h : makeSpace c n a = .ok c') : c'.nextKey = c.nextKey ∧ c'.nextLru = c.nextLru := by
  unfold makeSpace at h
  split at h
  · exact popOne_next h
  · split at h
    · cases h
    · cases h; exact ⟨rfl, rfl⟩

theorem findOrAddKey_next {c c' : Codec} {k : Str} (h : findOrAddKey c k = .ok c') : c'.nextKey ≤ c.nextKey + 1 ∧ c'.nextLru = c.nextLru := by
  unfold findOrAddKey at h
  split at h
  · cases h; exact ⟨by omega, rfl⟩
  · cases e1 : makeSpace c (List.length k) 0 with
    | error e => simp only [e1, bind, Except.bind] at h; cases h
    | ok c1 =>
      simp only [e1, bind, Except.bind] at h
      obtain ⟨a1, a2⟩ := makeSpace_next e1
      split at h
      · cases h
      · cases h
        exact ⟨by simp only [a1]; omega, a2⟩

theorem insertVal_next {c c' : Codec} {k v : Str} (h : insertVal c k v = .ok c') :
    c'.nextKey ≤ c.nextKey + 1 ∧ c'.nextLru = c.nextLru := by
  unfold insertVal at h
  cases e1 : findOrAddKey c k with
  | error e => simp only [e1, bind, Except.bind] at h; cases h
  | ok c1 =>
    simp only [e1, bind, Except.bind] at h
    obtain ⟨a1, a2⟩ := findOrAddKey_next e1
    by_cases hf : (findVal c1 k v).isSome = true
    · simp only [hf, if_true] at h; cases h
    · simp only [hf, Bool.false_eq_true, if_false] at h
      obtain ⟨-, -, k1, n1, -, -, -, -⟩ := refCnt_rest c1 k 1
      cases e2 : makeSpace (refCnt c1 k 1) (List.length v) 1 with
      | error e => simp only [e2] at h; cases h
      | ok c2 =>
        simp only [e2, pure, Except.pure] at h
        obtain ⟨b1, b2⟩ := makeSpace_next e2
        obtain ⟨-, -, k2, n2, -, -, -, -⟩ := refCnt_rest { c2 with numVals := c2.numVals + 1 } k (-1)
        cases h
        exact ⟨by simp only at k2 ⊢; omega, by simp only at n2 ⊢; omega⟩

theorem storeEntry_next {c c' : Codec} {k v : Str} (h : storeEntry c k v = .ok c') :
    c'.nextKey ≤ c.nextKey + 1 ∧ c'.nextLru = c.nextLru + 1 := by
  unfold storeEntry at h
  cases e1 : insertVal c k v with
  | error e => simp only [e1, bind, Except.bind] at h; cases h
  | ok c1 =>
    simp only [e1, bind, Except.bind] at h
    obtain ⟨a1, a2⟩ := insertVal_next e1
    cases hg : c1.generation with
    | none => simp only [hg] at h; cases h
    | some g =>
      simp only [hg] at h
      cases h
      exact ⟨a1, by simp only [a2]⟩

theorem initLoop_next (kvs : List Hdr) : ∀ {c c' : Codec} (_ : initLoop kvs c = .ok c'), c.nextKey ≤ c.nextLru → c'.nextKey ≤ c'.nextLru := by
  induction kvs with
  | nil => intro c c' h hc; cases h; exact hc
  | cons kv kvs ih =>
    intro c c' h hc
    obtain ⟨k, v⟩ := kv
    simp only [initLoop, bind, Except.bind] at h
    cases e1 : insertVal c k v with
    | error e => rw [e1] at h; cases h
    | ok c1 =>
      rw [e1] at h
      obtain ⟨a1, a2⟩ := insertVal_next e1
      exact ih h (by simp only; omega)

theorem storeAll_next (kvs : List Hdr) : ∀ {c c' : Codec} (_ : storeAll kvs c = .ok c'), c.nextKey ≤ c.nextLru → c'.nextKey ≤ c'.nextLru := by
  induction kvs with
  | nil => intro c c' h hc; cases h; exact hc
  | cons kv kvs ih =>
    intro c c' h hc
    simp only [storeAll, bind, Except.bind] at h
    cases e1 : storeEntry c kv.1 kv.2 with
    | error e => rw [e1] at h; cases h
    | ok c1 =>
      rw [e1] at h
      obtain ⟨a1, a2⟩ := storeEntry_next e1
      exact ih h (by omega)

theorem renumbers_next (is : List Nat) : ∀ {c : Codec}, c.nextKey ≤ c.nextLru → (is.foldl renumber c).nextKey ≤ (is.foldl renumber c).nextLru := by
  induction is with
  | nil => exact fun h => h
  | cons i is ih =>
    intro c h
    refine ih ?_
    show c.nextKey ≤ c.nextLru + 1
    omega

/-! ### One message of a session -/

/-- A state with values and names from a list. -/
structure Good (U : List Hdr) (c : Codec) : Prop where
  inv : Inv c
  sized : Sized c
  sub : ∀ kv ∈ c.entries.map VE.kv, kv ∈ U
  names : ∀ k ∈ c.keyMap.keys, k ∈ U.map (·.1)
  next : c.nextKey ≤ c.nextLru

theorem news_sub {c : Codec} {es : List Hdr} {kv : Hdr} (h : kv ∈ news c es) : kv ∈ es := by
  rcases List.mem_append.1 h with h | h <;> exact List.mem_of_mem_filter h

theorem Good.room {U : List Hdr} {c : Codec} (h : Good U c) {es : List Hdr} (hn : es.Nodup) (hs : ∀ kv ∈ es, kv ∈ U) :
    c.numVals + (news c es).length ≤ U.length := by
  have hnd : (c.entries.map VE.kv ++ news c es).Nodup := by
    rw [List.nodup_append]
    refine ⟨h.inv.core.kv, news_nodup hn, ?_⟩
    intro a ha b hb hab
    subst hab
    exact ((mem_news h.inv.core es a).1 hb).2 ha
  have hsub : c.entries.map VE.kv ++ news c es ⊆ U := by
    intro kv hkv
    rcases List.mem_append.1 hkv with hkv | hkv
    · exact h.sub kv hkv
    · exact hs kv (news_sub hkv)
  have := (List.subperm_of_subset hnd hsub).length_le
  rw [List.length_append, List.length_map] at this
  rw [h.inv.core.num]
  exact_mod_cast this

/-- If a message is accepted there was nothing wrong with it. -/
theorem Good.made {L : Libs} {U : List Hdr} {c c' : Codec} (h : Good U c) {ord : List VE → List VE} (ho : ∀ l, (ord l).Perm l)
    {headers es : List Hdr} (hes : sentList L headers = .ok es) (hn : es.Nodup) (hs : ∀ kv ∈ es, kv ∈ U) (hU : U.length ≤ 1024)
    {g : Instrs} (hm : makeOperations L ord c headers = .ok (c', g)) : Made c es c' ∧ Good U c' ∧ g = instrs ord c headers es := by
  have hroom := h.room hn hs
  rcases make_spec ho h.inv hes hn (by unfold maxVals; omega) with ⟨e, -⟩ | ⟨c'', e, hmade⟩
  · rw [e] at hm; cases hm
  · rw [e] at hm
    cases hm
    refine ⟨hmade, ⟨hmade.inv, hmade.sized h.sized, fun kv hkv => ?_, fun k hk => ?_, ?_⟩, rfl⟩
    · rcases (hmade.kvs kv).1 hkv with hkv | hkv
      · exact h.sub kv hkv
      · exact hs kv hkv
    · rcases (hmade.names k).1 hk with hk | hk
      · exact h.names k hk
      · obtain ⟨kv, hkv, rfl⟩ := List.mem_map.1 hk
        exact List.mem_map.2 ⟨kv, hs kv hkv, rfl⟩
    · rw [make_eq ho h.inv hes hn] at e
      cases e2 : storeAll (news c es) (mapE (setGen (gen c) es) (opened c headers)) with
      | error x => rw [e2] at e; cases e
      | ok c2 =>
        rw [e2] at e
        cases e
        obtain ⟨r1, -, -, -, -, -, -, r8, r9⟩ := closed_rest (knownKeys c headers) c2
        unfold adjust
        refine renumbers_next _ ?_
        rw [r1, r9]
        refine storeAll_next _ e2 ?_
        obtain ⟨⟨km, eo⟩, -⟩ := opened_same c headers
        show (opened c headers).nextKey ≤ (opened c headers).nextLru
        rw [eo]
        exact h.next

/-- The sum of the lengths of the different names. -/
def namesLen (U : List Hdr) : Nat := ((U.map (·.1)).dedup.map List.length).sum

theorem sum_le_of_subset {l m : List Str} (hl : l.Nodup) (hs : l ⊆ m) : (l.map List.length).sum ≤ (m.dedup.map List.length).sum := by
  have hsp : l.Subperm m.dedup := List.subperm_of_subset hl (fun x hx => List.mem_dedup.2 (hs hx))
  obtain ⟨l', hp, hsub⟩ := hsp
  rw [← (hp.map _).sum_eq]
  exact (hsub.map _).sum_le_sum (fun _ _ => Nat.zero_le _)

/-- Short enough messages are accepted. -/
theorem Good.total {L : Libs} {U : List Hdr} {c : Codec} (h : Good U c) {ord : List VE → List VE} (ho : ∀ l, (ord l).Perm l)
    {headers es : List Hdr} (hes : sentList L headers = .ok es) (hn : es.Nodup) (hs : ∀ kv ∈ es, kv ∈ U) (hU : U.length ≤ 1024)
    (hfit : ∀ kv ∈ es, namesLen U + kv.2.length ≤ 65536) : ∃ c', makeOperations L ord c headers = .ok (c', instrs ord c headers es) := by
  have hroom := h.room hn hs
  rcases make_spec ho h.inv hes hn (by unfold maxVals; omega) with ⟨-, names, -, hsub, kv, hkv, hlt⟩ | ⟨c'', e, -⟩
  · exfalso
    have hf := hfit kv (news_sub hkv)
    rw [h.sized.size] at hlt
    unfold nameSize maxStateSize at hlt
    have hnd : (c.keyMap.keys ++ (names.filter fun x => (keyOf c x).isNone).dedup).Nodup := by
      rw [List.nodup_append]
      refine ⟨h.sized.wf, List.nodup_dedup _, ?_⟩
      intro a ha b hb hab
      subst hab
      have := List.of_mem_filter (List.mem_dedup.1 hb)
      rw [mem_keyMap] at ha
      rw [Option.isNone_iff_eq_none] at this
      rw [this] at ha
      cases ha
    have hss : c.keyMap.keys ++ (names.filter fun x => (keyOf c x).isNone).dedup ⊆ U.map (·.1) := by
      intro x hx
      rcases List.mem_append.1 hx with hx | hx
      · exact h.names x hx
      · obtain ⟨kv', hkv', rfl⟩ := List.mem_map.1 (hsub.subset (List.mem_of_mem_filter (List.mem_dedup.1 hx)))
        exact List.mem_map.2 ⟨kv', hs _ (news_sub hkv'), rfl⟩
    have hle := sum_le_of_subset hnd hss
    rw [List.map_append, List.sum_append] at hle
    unfold namesLen at hf
    omega
  · exact ⟨c'', e⟩

/-- Instructions with small indices can be written. -/
theorem instrs_ok {c : Codec} (h : Inv c) {ord : List VE → List VE} (ho : ∀ l, (ord l).Perm l) {headers es : List Hdr}
    (hn : es.Nodup) (hnext : c.nextKey ≤ c.nextLru) (hlt : c.nextLru < 2 ^ 16)
    (hb : ∀ kv ∈ es, (∀ x ∈ kv.1, x < 256) ∧ ∀ x ∈ kv.2, x < 256) : InstrsOk (instrs ord c headers es) := by
  refine ⟨fun i hi => ?_, fun x hx => ?_, fun x hx => ?_⟩
  · have : ∃ e ∈ c.entries, e.idx = i := by
      rcases List.mem_append.1 hi with hi | hi
      · obtain ⟨e, he, h1, -⟩ := (mem_toggles h.core es i).1 hi
        exact ⟨e, he, h1⟩
      · obtain ⟨e, he, rfl⟩ := List.mem_map.1 hi
        have := (ho _).mem_iff.1 (List.mem_of_mem_filter he)
        have := List.mem_of_mem_filter this
        rw [entries_mapE, opened_entries] at this
        obtain ⟨e', he', rfl⟩ := List.mem_map.1 this
        exact ⟨e', he', (touch_idx _ _ _).symm⟩
    obtain ⟨e, he, rfl⟩ := this
    have := h.core.idxLe e he
    omega
  · obtain ⟨kv, hkv, e⟩ := List.mem_filterMap.1 hx
    unfold cloneOf at e
    split at e
    · cases e
    · cases hk : keyOf c kv.1 with
      | none => rw [hk] at e; cases e
      | some i =>
        rw [hk] at e
        cases e
        have h1 := h.core.keyIdx kv.1 i hk
        have h2 : i ≤ c.nextKey := h.core.keyLe i (by
          by_contra hno
          rw [Dict.get?_none.2 hno] at h1
          cases h1)
        exact ⟨by simp only; omega, (hb kv hkv).2⟩
  · obtain ⟨kv, hkv, e⟩ := List.mem_filterMap.1 hx
    unfold kvstoOf at e
    split at e
    · cases e
      exact hb kv hkv
    · cases e

/-! ### Sessions -/

theorem compress_ok {L : Libs} {h : Huffman} {c c' : Codec} {m : Message} {b : Str} (e : compress L h c m = .ok (c', b)) :
    ∃ g, makeOperations L m.ord c m.headers = .ok (c', g) ∧ opsToRealOps h g = .ok b := by
  simp only [compress, bind, Except.bind] at e
  cases e1 : makeOperations L m.ord c m.headers with
  | error x => rw [e1] at e; cases e
  | ok r =>
    obtain ⟨c1, g⟩ := r
    rw [e1] at e
    simp only at e
    cases e2 : opsToRealOps h g with
    | error x => rw [e2] at e; cases e
    | ok bl =>
      rw [e2] at e
      cases e
      exact ⟨g, rfl, e2⟩

theorem compressAll_append {L : Libs} {h : Huffman} (ms ns : List Message) : ∀ {c c' : Codec} {bs : List Str},
    compressAll L h (ms ++ ns) c = .ok (c', bs) ↔
      ∃ c1 bs1 bs2, compressAll L h ms c = .ok (c1, bs1) ∧ compressAll L h ns c1 = .ok (c', bs2) ∧ bs = bs1 ++ bs2 := by
  induction ms with
  | nil =>
    intro c c' bs
    constructor
    · exact fun e => ⟨c, [], bs, rfl, e, rfl⟩
    · rintro ⟨c1, bs1, bs2, e1, e2, rfl⟩
      cases e1
      exact e2
  | cons m ms ih =>
    intro c c' bs
    simp only [List.cons_append, compressAll, bind, Except.bind]
    cases e1 : compress L h c m with
    | error x => simp
    | ok r =>
      obtain ⟨c1, b⟩ := r
      simp only
      constructor
      · intro e
        cases e2 : compressAll L h (ms ++ ns) c1 with
        | error x => rw [e2] at e; cases e
        | ok r =>
          obtain ⟨c2, bs'⟩ := r
          rw [e2] at e
          cases e
          obtain ⟨c3, bs1, bs2, f1, f2, rfl⟩ := ih.1 e2
          exact ⟨c3, b :: bs1, bs2, by rw [f1]; rfl, f2, rfl⟩
      · rintro ⟨c3, bs1, bs2, f1, f2, rfl⟩
        cases e2 : compressAll L h ms c1 with
        | error x => rw [e2] at f1; cases f1
        | ok r =>
          obtain ⟨c2, bs'⟩ := r
          rw [e2] at f1
          cases f1
          rw [ih.2 ⟨_, bs', bs2, e2, f2, rfl⟩]
          rfl

theorem compressAll_one {L : Libs} {h : Huffman} {m : Message} {c c' : Codec} {bs : List Str} (e : compressAll L h [m] c = .ok (c', bs)) :
    ∃ b, compress L h c m = .ok (c', b) ∧ bs = [b] := by
  simp only [compressAll, bind, Except.bind] at e
  cases e1 : compress L h c m with
  | error x => rw [e1] at e; cases e
  | ok r =>
    obtain ⟨c1, b⟩ := r
    rw [e1] at e
    cases e
    exact ⟨b, rfl, rfl⟩

/-- What is asked of a message. -/
structure Valid (L : Libs) (U : List Hdr) (m : Message) : Prop where
  ord : ∀ l, (m.ord l).Perm l
  names : (m.headers.map (·.1)).Nodup
  crumbs : Spec.Crumbs L m.headers
  sub : ∀ kv, Spec.Says L m.headers kv → kv ∈ U

theorem compress_sent {L : Libs} {h : Huffman} {c c' : Codec} (hi : Inv c) {m : Message} {b : Str} (e : compress L h c m = .ok (c', b)) :
    ∃ es, sentList L m.headers = .ok es := by
  obtain ⟨g, e1, -⟩ := compress_ok e
  cases hes : sentList L m.headers with
  | error x => rw [make_error hi hes] at e1; cases e1
  | ok es => exact ⟨es, rfl⟩

theorem Good.step {L : Libs} {h : Huffman} {U : List Hdr} (hU : U.length ≤ 1024) {c c' : Codec} (hg : Good U c) {m : Message}
    (hv : Valid L U m) {b : Str} (e : compress L h c m = .ok (c', b)) :
    ∃ es, sentList L m.headers = .ok es ∧ es.Nodup ∧ (∀ kv ∈ es, kv ∈ U) ∧ Made c es c' ∧ Good U c' := by
  obtain ⟨es, hes⟩ := compress_sent hg.inv e
  obtain ⟨g, e1, -⟩ := compress_ok e
  have hn := sentList_nodup hes hv.names hv.crumbs
  have hs : ∀ kv ∈ es, kv ∈ U := fun kv hkv => hv.sub kv ((sentList_says hes kv).1 hkv)
  obtain ⟨h1, h2, -⟩ := hg.made hv.ord hes hn hs hU e1
  exact ⟨es, hes, hn, hs, h1, h2⟩

theorem Good.session {L : Libs} {h : Huffman} {U : List Hdr} (hU : U.length ≤ 1024) (ms : List Message) : ∀ {c c' : Codec} (_ : Good U c)
    (_ : ∀ m ∈ ms, Valid L U m) {bs : List Str} (_ : compressAll L h ms c = .ok (c', bs)), Good U c' := by
  induction ms with
  | nil => intro c c' hg _ bs e; cases e; exact hg
  | cons m ms ih =>
    intro c c' hg hv bs e
    obtain ⟨c1, bs1, bs2, e1, e2, -⟩ := (compressAll_append [m] ms).1 e
    obtain ⟨b, e1, -⟩ := compressAll_one e1
    obtain ⟨-, -, -, -, -, hg1⟩ := hg.step hU (hv m (by simp)) e1
    exact ih hg1 (fun x hx => hv x (by simp [hx])) e2

theorem init_good {kvs : List Hdr} (hp : kvs.Perm defaultDict) {U : List Hdr} (hU : ∀ kv ∈ defaultDict, kv ∈ U) {c : Codec}
    (e : Codec.init kvs = .ok c) : Good U c := by
  obtain ⟨c', e', h1, h2, h3, -, h5, h6, -, -, h9, -⟩ := init_spec hp
  rw [e] at e'
  cases e'
  refine ⟨h1, h2, fun kv hkv => ?_, fun k hk => ?_, ?_⟩
  · rw [h3] at hkv
    exact hU kv (hp.mem_iff.1 hkv)
  · obtain ⟨kv, hkv, rfl⟩ := List.mem_map.1 ((h9 k).1 hk)
    exact List.mem_map.2 ⟨kv, hU kv hkv, rfl⟩
  · exact initLoop_next kvs e le_rfl

end Verif.DeltaBohe
