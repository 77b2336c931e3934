import Verif.Delta1.MakeLemmas
import Verif.Delta2.SessionLemmas
/-
Sessions of delta: the compressor and the decompressor stay in step.
-/
namespace Verif.Delta1
open Verif Verif.Delta2 Verif.Huff Verif.Huff.Spec

/-! ### Groups -/

theorem findOrMake_inv {c : Codec} (hi : Inv c) (gid : Nat) :
    Inv (findOrMake c gid) ∧ Same c (findOrMake c gid) ∧ (findOrMake c gid).store = c.store ∧
      (∃ hg, (findOrMake c gid).groups.get? gid = some hg) ∧ ∀ g, glen (findOrMake c gid) g = glen c g := by
  unfold findOrMake
  split
  · rename_i h
    exact ⟨hi, Same.refl c, rfl, has_iff.1 h, fun _ => rfl⟩
  · rename_i h
    have hn : c.groups.get? gid = none := by
      cases hg : c.groups.get? gid with
      | none => rfl
      | some hg' => simp [Dict.has, hg] at h
    have hget : ∀ g hg, (c.groups.set gid []).get? g = some hg → c.groups.get? g = some hg ∨ hg = [] := by
      intro g hg hgg
      rw [Dict.get?_set] at hgg
      split at hgg
      · cases hgg
        exact .inr rfl
      · exact .inl hgg
    refine ⟨⟨hi.nd, hi.ns, hi.lt, fun g hg hgg => ?_, fun g hg hgg i him => ?_, fun ve hve g => ?_, hi.key, hi.has, hi.kids,
      hi.lids, hi.cnt⟩, Same.refl c, rfl, ⟨[], by simp [Dict.get?_set]⟩, fun g => ?_⟩
    · rcases hget g hg hgg with h' | rfl
      · exact hi.asc g hg h'
      · exact List.Pairwise.nil
    · rcases hget g hg hgg with h' | rfl
      · exact hi.mem g hg h' i him
      · cases him
    · rw [hi.hist ve hve g]
      constructor
      · rintro ⟨hg, h1, h2⟩
        refine ⟨hg, ?_, h2⟩
        rw [Dict.get?_set, if_neg]
        · exact h1
        · rintro rfl
          rw [hn] at h1
          cases h1
      · rintro ⟨hg, h1, h2⟩
        rcases hget g hg h1 with h' | rfl
        · exact ⟨hg, h', h2⟩
        · cases h2
    · simp only [glen]
      rw [Dict.get?_set]
      split
      · rename_i he
        subst he
        rw [hn]
        rfl
      · rfl

theorem findOrMake_idem (c : Codec) (gid : Nat) : findOrMake (findOrMake c gid) gid = findOrMake c gid := by
  have h : (findOrMake c gid).groups.has gid = true := by
    unfold findOrMake
    split
    · assumption
    · simp [Dict.has, Dict.get?_set]
  rw [findOrMake, if_pos h]

/-! ### One message -/

theorem execute_make (ord : List Nat → List Nat) (c : Codec) (ops : List Op) (gid : Nat) :
    execute ord (findOrMake c gid) ops gid = execute ord c ops gid := by
  simp only [execute, findOrMake_idem]

/-- The toggles as they are sent. -/
def Instrs.sent (g : Instrs) : List Op :=
  (toggleRanges g.toggl).ot.map .toggl ++ (toggleRanges g.toggl).otr.map fun x => .trang x.1 x.2

theorem groups_flat (g : Instrs) : g.groups.flatMap (·.2) = g.sent ++ g.lits := by
  simp [Instrs.groups, Instrs.sent, Instrs.lits]

theorem ops_flat (g : Instrs) : g.ops = g.toggl.map .toggl ++ g.lits := by
  simp [Instrs.ops, Instrs.lits]

theorem sent_toggled (g : Instrs) : g.sent.flatMap Op.toggled = (toggleRanges g.toggl).all := by
  simp only [Instrs.sent, RangeSt.all, List.flatMap_append, List.flatMap_map]
  congr 1
  simp [Op.toggled]

theorem sent_isToggle (g : Instrs) : ∀ op ∈ g.sent, op.isToggle = true := by
  intro op h
  simp only [Instrs.sent, List.mem_append, List.mem_map] at h
  rcases h with ⟨x, -, rfl⟩ | ⟨x, -, rfl⟩ <;> rfl

theorem lits_isToggle (g : Instrs) : ∀ op ∈ g.lits, op.isToggle = false := by
  intro op h
  simp only [Instrs.lits, List.mem_append, List.mem_map] at h
  rcases h with (⟨x, -, rfl⟩ | ⟨x, -, rfl⟩) | ⟨x, -, rfl⟩ <;> rfl

theorem lits_stored (g : Instrs) : (g.lits.filter Op.isStored).length = g.clone.length + g.kvsto.length := by
  have h1 : ∀ {α : Type} (l : List α) (f : α → Op), (∀ x, (f x).isStored = true) → (l.map f).filter Op.isStored = l.map f := by
    intro α l f h
    rw [List.filter_eq_self]
    intro op hop
    obtain ⟨x, -, rfl⟩ := List.mem_map.1 hop
    exact h x
  have h2 : ∀ {α : Type} (l : List α) (f : α → Op), (∀ x, (f x).isStored = false) → (l.map f).filter Op.isStored = [] := by
    intro α l f h
    rw [List.filter_eq_nil_iff]
    intro op hop
    obtain ⟨x, -, rfl⟩ := List.mem_map.1 hop
    simp [h x]
  rw [Instrs.lits, List.filter_append, List.filter_append, h1 _ _ (fun _ => rfl), h1 _ _ (fun _ => rfl),
    h2 _ _ (fun _ => rfl)]
  simp

theorem toggledC_glen (c : Codec) {gid : Nat} {hg S : List Nat} (ha : hg.Pairwise (· < ·))
    (hS : S.Nodup) (g : Nat) :
    glen (toggledC c gid hg S) g = if g = gid then (symDiff (S.foldl addSet []) hg).length else glen c g := by
  simp only [glen, toggledC]
  rw [Dict.get?_set]
  by_cases h : gid = g
  · subst h
    rw [if_pos rfl, if_pos rfl]
    simp only [Option.getD_some]
    refine List.Perm.length_eq ((List.perm_ext_iff_of_nodup (asc_nodup (asc_toggles S ha))
      (nodup_symDiff (nodup_addAll List.nodup_nil))).2 fun x => ?_)
    rw [mem_toggles S hS, mem_symDiff (asc_nodup ha), mem_addAll]
    simp only [List.not_mem_nil, false_or]
    tauto
  · rw [if_neg h, if_neg (fun e => h e.symm)]

theorem toggledC_inv {c : Codec} (hi : Inv c) {gid : Nat} (S : List Nat) : ∀ {hg : List Nat}, c.groups.get? gid = some hg →
    S.Nodup → (∀ i ∈ S, ∃ ve ∈ c.store.lru, ve.idx = i) → Inv (toggledC c gid hg S) ∧ Same c (toggledC c gid hg S) ∧
      (toggledC c gid hg S).store.lru.length = c.store.lru.length := by
  intro hg hhg hnd hin
  have e := toggleAll_eq gid S hi hhg hnd hin
  have key : ∀ (S : List Nat) {c c' : Codec}, Inv c → toggleAll gid S c = .ok c' →
      Inv c' ∧ Same c c' ∧ c'.store.lru.length = c.store.lru.length := by
    intro S
    induction S with
    | nil => intro c c' hi h; cases h; exact ⟨hi, Same.refl c, rfl⟩
    | cons i S ih =>
      intro c c' hi h
      simp only [toggleAll, bind, Except.bind] at h
      split at h
      · cases h
      · rename_i c1 h1
        obtain ⟨i1, i2, -, -, i5, -⟩ := doToggle_spec hi h1
        obtain ⟨j1, j2, j3⟩ := ih i1 h
        exact ⟨j1, i2.trans j2, j3.trans i5⟩
  exact key S hi e

/-- The two sides of a message, if the compressor does not fail. -/
theorem message_spec {ordG : List GEvent → List Nat} (hG : GroupOrder ordG) {o : Orders} (ho : o.Ok) {c c' : Codec} (hi : Inv c)
    {headers : Dict Str Str} (hst : ∀ x ∈ headersSet headers, x.1 ≠ c.store.staticKey) {gid : Nat} {g : Instrs}
    (h : makeOperations ordG o c headers gid = .ok (c', g)) :
    Inv c' ∧ Same c c' ∧ (c'.store.lru.length ≤ c.store.lru.length ∨ c'.store.lru.length ≤ max c.store.maxVals.toNat 1) ∧
      (∀ x, glen c' x ≤ if x = gid then (headersSet headers).length else glen c x) ∧
      (∃ hg, Made (findOrMake c gid) hg headers g ∧ hg.length = glen c gid) ∧
      ∀ ord : List Nat → List Nat, (∀ l, (ord l).Perm l) → ∃ c1 out,
        execute ord c (g.groups.flatMap (·.2)) gid = .ok (c1, out) ∧ adjust ordG c1 gid = .ok c' ∧ Decoded headers out := by
  obtain ⟨i1, i2, i3, ⟨hg, hhg⟩, i5⟩ := findOrMake_inv hi gid
  obtain ⟨g', e1, hm⟩ := makeInstructions_spec i1 hhg ho (headers := headers) (by rw [i3]; exact hst)
  simp only [makeOperations, bind, Except.bind, e1] at h
  have hasc := i1.asc gid hg hhg
  have hex : ∀ (ord : List Nat → List Nat), (∀ l, (ord l).Perm l) → ∀ tops : List Op, (∀ op ∈ tops, op.isToggle = true) →
      (tops.flatMap Op.toggled).Perm g'.toggl →
      execute ord (findOrMake c gid) (tops ++ g'.lits) gid =
      (storeAll gid ((g'.lits.filter Op.isStored).map (litOf (findOrMake c gid).store))
        (toggledC (findOrMake c gid) gid hg g'.toggl)).map
        fun c' => (c', fixCookie (appendAll ((ord (symDiff ((tops.flatMap Op.toggled).foldl addSet []) hg)).map
          (pairOf (findOrMake c gid).store) ++ g'.lits.map (litOf (findOrMake c gid).store)) [])) := by
    intro ord hord tops ht hp
    rw [execute_eq i1 hhg hord tops g'.lits ht (lits_isToggle g') (fun k v hkv => (hm.key k v hkv).2)
      (hp.nodup_iff.2 hm.nd) (fun i hi => hm.mem i (hp.mem_iff.1 hi)), toggledC_perm _ gid hasc (hp.nodup_iff.2 hm.nd) hp]
  have htt : (g'.toggl.map Op.toggl).flatMap Op.toggled = g'.toggl := by
    rw [List.flatMap_map]
    simp [Op.toggled]
  have hC := hex o.onC ho.onC (g'.toggl.map .toggl) (by simp [Op.isToggle]) (by rw [htt])
  rw [← ops_flat, htt] at hC
  rw [hC] at h
  cases hs : storeAll gid ((g'.lits.filter Op.isStored).map (litOf (findOrMake c gid).store))
      (toggledC (findOrMake c gid) gid hg g'.toggl) with
  | error e =>
    rw [hs] at h
    simp [Except.map] at h
  | ok c1 =>
    rw [hs] at h
    simp only [Except.map] at h
    split at h
    · cases h
    rename_i c2 ha
    simp only [pure, Except.pure, Except.ok.injEq, Prod.mk.injEq] at h
    obtain ⟨rfl, rfl⟩ := h
    obtain ⟨t1, t2, t3⟩ := toggledC_inv i1 g'.toggl hhg hm.nd hm.mem
    obtain ⟨s1, s2, s3, s4, s5⟩ := storeAll_spec gid _ t1 hs
    obtain ⟨a1, a2, a3, a4, a5⟩ := adjust_spec hG s1 ha
    refine ⟨a1, i2.trans (t2.trans (s2.trans a2)), ?_, fun x => ?_, ⟨hg, hm, ?_⟩, fun ord hord => ⟨c1,
      fixCookie (appendAll ((ord (symDiff ((g'.sent.flatMap Op.toggled).foldl addSet []) hg)).map
        (pairOf (findOrMake c gid).store) ++ g'.lits.map (litOf (findOrMake c gid).store)) []), ?_, ha, ⟨?_, ?_⟩⟩⟩
    · have h1 : (toggledC (findOrMake c gid) gid hg g'.toggl).store.maxVals = c.store.maxVals := (i2.trans t2).2.2.1
      rw [h1] at s4
      rw [a4, ← i3, ← t3]
      rw [i3]
      exact s4
    · have h1 : glen c2 x ≤ glen c1 x := by
        simp only [glen]
        cases hgx : c2.groups.get? x with
        | none => simp
        | some hg' =>
          obtain ⟨hg0, h0, hl⟩ := a5 x hg' hgx
          rw [h0]
          exact hl
      have h2 := s5 x
      rw [List.length_map, lits_stored, toggledC_glen _ hasc hm.nd] at h2
      have h3 := hm.grp
      by_cases hx : x = gid
      · rw [if_pos hx] at h2 ⊢
        rw [if_pos hx] at h2
        omega
      · rw [if_neg hx] at h2 ⊢
        rw [if_neg hx, i5] at h2
        omega
    · have := i5 gid
      rw [← this]
      simp only [glen]
      rw [hhg]
      rfl
    · rw [groups_flat, ← execute_make, hex ord hord g'.sent (sent_isToggle g')
        (by rw [sent_toggled]; exact (toggleRanges_spec g'.toggl).1), hs]
      rfl
    · intro hck x
      refine same_pieces (fun y => ?_) hck x
      rw [← mem_headersSet, ← hm.all y, List.mem_append, List.mem_append]
      simp only [List.mem_map (f := pairOf (findOrMake c gid).store)]
      refine or_congr (exists_congr fun i => and_congr ?_ Iff.rfl) Iff.rfl
      rw [(hord _).mem_iff, mem_symDiff (asc_nodup hasc), mem_symDiff (asc_nodup hasc), mem_addAll, mem_addAll, sent_toggled,
        (toggleRanges_spec g'.toggl).1.mem_iff]
    · exact fun v hv => fixCookie_noNul _ hv

/-- What is sent can be packed. -/
theorem made_ok {c : Codec} (hi : Inv c) {hg : List Nat} {headers : Dict Str Str} {g : Instrs} (hm : Made c hg headers g)
    (hb : ∀ kv ∈ headers, (∀ x ∈ kv.1, x < 256) ∧ ∀ x ∈ kv.2, x < 256) : GroupsOk g.groups := by
  have hT : ∀ i ∈ (toggleRanges g.toggl).all, i < 2 ^ 16 := by
    intro i him
    rw [(toggleRanges_spec g.toggl).1.mem_iff] at him
    obtain ⟨ve, hve, rfl⟩ := hm.mem i him
    exact hi.lt ve hve
  have hbytes := headersSet_bytes hb
  intro blk hblk op hop
  simp only [Instrs.groups, List.mem_cons, List.not_mem_nil, or_false] at hblk
  rcases hblk with rfl | rfl | rfl | rfl | rfl
  · obtain ⟨i, him, rfl⟩ := List.mem_map.1 hop
    exact ⟨rfl, hT i (List.mem_append.2 (.inl him))⟩
  · obtain ⟨r, hr, rfl⟩ := List.mem_map.1 hop
    have hle := (toggleRanges_spec g.toggl).2.1 r hr
    have hmem : ∀ i, r.1 ≤ i → i ≤ r.2 → i < 2 ^ 16 := fun i h1 h2 => by
      refine hT i (List.mem_append.2 (.inr (List.mem_flatMap.2 ⟨r, hr, ?_⟩)))
      simp only [range, List.mem_map, List.mem_range]
      exact ⟨i - r.1, by omega, by omega⟩
    exact ⟨rfl, hmem _ (Nat.le_refl _) hle, hmem _ hle (Nat.le_refl _)⟩
  · obtain ⟨x, hx, rfl⟩ := List.mem_map.1 hop
    have hl : Op.clone x.1 x.2 ∈ g.lits := by
      simp only [Instrs.lits, List.mem_append]
      exact .inl (.inl (List.mem_map_of_mem hx))
    have h1 := hbytes _ (hm.lits _ hl)
    exact ⟨rfl, (hm.key _ _ hl).1, h1.2⟩
  · obtain ⟨x, hx, rfl⟩ := List.mem_map.1 hop
    have hl : Op.kvsto x.1 x.2 ∈ g.lits := by
      simp only [Instrs.lits, List.mem_append]
      exact .inl (.inr (List.mem_map.2 ⟨x, hx, rfl⟩))
    exact ⟨rfl, hbytes _ (hm.lits _ hl)⟩
  · obtain ⟨x, hx, rfl⟩ := List.mem_map.1 hop
    have hl : Op.eref x.1 x.2 ∈ g.lits := by
      simp only [Instrs.lits, List.mem_append]
      exact .inr (List.mem_map.2 ⟨x, hx, rfl⟩)
    exact ⟨rfl, hbytes _ (hm.lits _ hl)⟩

theorem made_few {c : Codec} {hg : List Nat} {headers : Dict Str Str} {g : Instrs} (hm : Made c hg headers g)
    (h : hg.length + (headersSet headers).length ≤ 256) : ∀ blk ∈ g.groups, blk.2.length ≤ 256 := by
  intro blk hblk
  have h1 := (toggleRanges_spec g.toggl).2.2
  have h2 := hm.few
  have h3 := hm.few'
  simp only [Instrs.groups, List.mem_cons, List.not_mem_nil, or_false] at hblk
  rcases hblk with rfl | rfl | rfl | rfl | rfl <;> simp only [List.length_map] <;> omega

/-! ### Hosts -/

/-- All group ids fit a byte. -/
structure HostsOk (c : Compressor) : Prop where
  max : c.ids.maxId = 255
  min : c.ids.minId = 0
  hosts : ∀ h g, c.hosts.get? h = some g → g < 255

theorem groupOf_spec (u : Setup) {c : Compressor} (h : HostsOk c) (host : Str) :
    HostsOk (groupOf u c host).1 ∧ (groupOf u c host).1.codec = c.codec ∧ (groupOf u c host).2 < 256 := by
  unfold groupOf
  split
  · rename_i gid hg
    exact ⟨h, rfl, by have := h.hosts _ _ hg; omega⟩
  · have hlt : (getNext c.ids).2 < 255 := by
      have := getNext_lt (s := c.ids) (by rw [h.max, h.min]; omega)
      rwa [h.max] at this
    refine ⟨⟨h.max, h.min, fun k g hg => ?_⟩, rfl, by dsimp only; omega⟩
    dsimp only at hg
    rw [Dict.get?_set] at hg
    split at hg
    · cases hg
      exact hlt
    · exact h.hosts k g hg

/-! ### Sessions -/

/-- Header names and values of bytes, no header with the given name, and few enough headers; orders that are orders. -/
structure MessageOk (u : Setup) (m : Message) : Prop where
  orders : m.orders.Ok
  bytes : ∀ kv ∈ m.headers, (∀ c ∈ kv.1, c < 256) ∧ ∀ c ∈ kv.2, c < 256
  names : ∀ kv ∈ m.headers, kv.1 ≠ u.staticKey
  few : (headersSet m.headers).length ≤ 128

theorem headersSet_names {h : Dict Str Str} {s : Str} (hn : ∀ kv ∈ h, kv.1 ≠ s) : ∀ x ∈ headersSet h, x.1 ≠ s := by
  intro x hx
  rw [mem_headersSet, List.mem_flatMap] at hx
  obtain ⟨kv, hkv, hx⟩ := hx
  rw [splitHeader_fst hx]
  exact hn kv hkv

theorem compress_spec {u : Setup} (hG : GroupOrder u.ordG) {codes : List (List Bool)} (hc : Codes u.huffman codes)
    (h257 : codes.length = 257) {c c' : Compressor} (hi : Inv c.codec) (hs : c.codec.store.staticKey = u.staticKey)
    (hh : HostsOk c) (hl : ∀ g, glen c.codec g ≤ 128) {m : Message} (hm : MessageOk u m) {blob : Str}
    (h : compress u c m = .ok (c', blob)) :
    Inv c'.codec ∧ Same c.codec c'.codec ∧ HostsOk c' ∧ (∀ g, glen c'.codec g ≤ 128) ∧
      (c'.codec.store.lru.length ≤ c.codec.store.lru.length ∨
        c'.codec.store.lru.length ≤ max c.codec.store.maxVals.toNat 1) ∧
      (blob.length ≤ 65536 → ∃ out, decompress u m.orders c.codec blob = .ok (c'.codec, out) ∧ Decoded m.headers out) := by
  obtain ⟨k1, k2, k3⟩ := groupOf_spec u hh m.host
  generalize hg : groupOf u c m.host = r at k1 k2 k3
  simp only [compress, hg, bind, Except.bind, k2] at h
  split at h
  · cases h
  rename_i v hv
  obtain ⟨codec, g⟩ := v
  dsimp only at h
  split at h
  · cases h
  rename_i blob' hb
  simp only [pure, Except.pure, Except.ok.injEq, Prod.mk.injEq] at h
  obtain ⟨rfl, rfl⟩ := h
  obtain ⟨a1, a2, a3, a4, ⟨hg0, hmade, hlen⟩, a6⟩ := message_spec hG hm.orders hi
    (by rw [hs]; exact headersSet_names hm.names) hv
  refine ⟨a1, a2, ⟨k1.max, k1.min, k1.hosts⟩, fun x => ?_, a3, fun hfit => ?_⟩
  · have := a4 x
    split at this
    · have := hm.few
      dsimp only
      omega
    · exact Nat.le_trans this (hl x)
  · obtain ⟨i1, -⟩ := findOrMake_inv hi r.2
    have hgs := made_ok i1 hmade hm.bytes
    have hfew := made_few hmade (by have := hl r.2; have := hm.few; omega)
    obtain ⟨c1, out, e1, e2, hd⟩ := a6 m.orders.onD hm.orders.onD
    have e3 := wire_ok hc h257 g.groups hgs hfew r.2 k3 hb hfit
    refine ⟨out, ?_, hd⟩
    simp only [decompress, executeReal, bind, Except.bind, e3, execute_make, e1, e2, pure, Except.pure]

theorem session_spec {u : Setup} (hG : GroupOrder u.ordG) {codes : List (List Bool)} (hc : Codes u.huffman codes)
    (h257 : codes.length = 257) (ms : List Message) (hm : ∀ m ∈ ms, MessageOk u m) : ∀ {c c' : Compressor} {blobs : List Str},
    Inv c.codec → c.codec.store.staticKey = u.staticKey → HostsOk c → (∀ g, glen c.codec g ≤ 128) →
    compressAll u ms c = .ok (c', blobs) →
    Inv c'.codec ∧ Same c.codec c'.codec ∧ (c'.codec.store.lru.length ≤ c.codec.store.lru.length ∨
        c'.codec.store.lru.length ≤ max c.codec.store.maxVals.toNat 1) ∧
      ((∀ b ∈ blobs, b.length ≤ 65536) → ∃ outs, decompressAll u ((ms.map (·.orders)).zip blobs) c.codec = .ok (c'.codec, outs) ∧
        List.Forall₂ (fun m out => Decoded m.headers out) ms outs) := by
  induction ms with
  | nil =>
    intro c c' blobs hi _ _ _ h
    cases h
    exact ⟨hi, Same.refl _, .inl (Nat.le_refl _), fun _ => ⟨[], rfl, .nil⟩⟩
  | cons m ms ih =>
    intro c c' blobs hi hs hh hl h
    simp only [compressAll, bind, Except.bind] at h
    split at h
    · cases h
    rename_i v hv
    obtain ⟨c1, blob⟩ := v
    dsimp only at h
    split at h
    · cases h
    rename_i w hw
    obtain ⟨c2, blobs'⟩ := w
    simp only [pure, Except.pure, Except.ok.injEq, Prod.mk.injEq] at h
    obtain ⟨rfl, rfl⟩ := h
    obtain ⟨a1, a2, a3, a4, a5, a6⟩ := compress_spec hG hc h257 hi hs hh hl (hm m (by simp)) hv
    obtain ⟨b1, b2, b3, b4⟩ := ih (fun m hm' => hm m (by simp [hm'])) a1 (a2.1.trans hs) a3 a4 hw
    refine ⟨b1, a2.trans b2, ?_, fun hfit => ?_⟩
    · rw [a2.2.2.1] at b3
      omega
    · obtain ⟨out, e3, ho⟩ := a6 (hfit blob (by simp))
      obtain ⟨outs, e4, hos⟩ := b4 (fun b hb => hfit b (by simp [hb]))
      refine ⟨out :: outs, ?_, .cons ho hos⟩
      simp only [List.map_cons, List.zip_cons_cons, decompressAll, bind, Except.bind, e3, e4, pure, Except.pure]

/-! ### A new codec -/

/-- The store after some rounds of the constructor's loop. -/
def initStore (staticKey : Str) (mb me : Int) (n : Nat) : Store :=
  { staticKey := staticKey, statics := (List.range n).map (· + 1), keyMap := [(staticKey, { idx := 1 })],
    keyIds := { next := 1, maxId := 2 ^ 16 }, lruIds := { next := n, minId := n, maxId := 2 ^ 16 }, maxVals := me, maxSize := mb }

theorem getNext_small {s : IdSt} (h : s.next + 1 < s.maxId) : getNext s = ({ s with next := s.next + 1 }, s.next + 1) := by
  have hn : ¬(s.maxId ≠ 0 ∧ s.next + 1 ≥ s.maxId) := by omega
  simp only [getNext, if_neg hn]

theorem nextUnused_static (staticKey : Str) (mb me : Int) (n : Nat) (hn : n + 1 < 2 ^ 16) :
    nextUnused (initStore staticKey mb me n).used (initStore staticKey mb me n).lruIds =
      .ok ({ next := n + 1, minId := n, maxId := 2 ^ 16 }, n + 1) := by
  have hu : (initStore staticKey mb me n).used (n + 1) = false := by
    simp [Store.used, initStore]
  have hg : getNext (initStore staticKey mb me n).lruIds = ({ next := n + 1, minId := n, maxId := 2 ^ 16 }, n + 1) :=
    getNext_small (s := { next := n, minId := n, maxId := 2 ^ 16 }) hn
  simp only [nextUnused, hg, unusedLoop, hu]
  simp

theorem staticLoop_spec (staticKey : Str) (mb me : Int) (k : Nat) : ∀ n, n + k < 2 ^ 16 →
    staticLoop k (initStore staticKey mb me n) = .ok (initStore staticKey mb me (n + k)) := by
  induction k with
  | zero => intro n _; rfl
  | succ k ih =>
    intro n hn
    have hk : (initStore staticKey mb me n).keyMap.has (initStore staticKey mb me n).staticKey = true := by
      simp [initStore, Dict.has, Dict.get?]
    have e : staticStep (initStore staticKey mb me n) = .ok (initStore staticKey mb me (n + 1)) := by
      simp only [staticStep, hk, if_true, bind, Except.bind, nextUnused_static staticKey mb me n (by omega), pure, Except.pure]
      simp [initStore, List.range_succ]
    simp only [staticLoop, bind, Except.bind, e, ih (n + 1) (by omega)]
    rw [show n + 1 + k = n + (k + 1) by omega]

theorem staticLoop_succ {n : Nat} {s s' : Store} (h : staticStep s = .ok s') : staticLoop (n + 1) s = staticLoop n s' := by
  simp only [staticLoop, bind, Except.bind, h]

theorem init_spec (staticKey : Str) (mb me : Int) : Store.init staticKey mb me = .ok (initStore staticKey mb me 65) := by
  have e : staticStep { staticKey := staticKey, maxVals := me, maxSize := mb } = .ok (initStore staticKey mb me 1) := by
    have h1 : (Store.keyMap { staticKey := staticKey, maxVals := me, maxSize := mb }).has staticKey = false := rfl
    have h2 : newKE { staticKey := staticKey, maxVals := me, maxSize := mb } staticKey = .ok (initStore staticKey mb me 0, 1) := rfl
    have h3 := nextUnused_static staticKey mb me 0 (by omega)
    simp only [staticStep, h1, Bool.false_eq_true, if_false, h2, Except.map, bind, Except.bind, h3]
    rfl
  have hl : defaultKvs.length = 64 + 1 := rfl
  rw [Store.init, hl, staticLoop_succ e]
  exact staticLoop_spec staticKey mb me 64 1 (by omega)

theorem codec_init (staticKey : Str) (cfg : Config) :
    Codec.init staticKey cfg = .ok { store := initStore staticKey cfg.maxBytes cfg.maxEntries 65 } := by
  simp only [Codec.init, bind, Except.bind, init_spec, pure, Except.pure]

theorem init_inv (staticKey : Str) (mb me : Int) : Inv { store := initStore staticKey mb me 65 } := by
  refine ⟨List.nodup_nil, by simp [initStore], by simp [initStore], by simp [Dict.get?], by simp [Dict.get?], by simp [initStore],
    ?_, by simp [initStore], ⟨rfl, by simp [initStore]⟩, ⟨rfl, by simp [initStore]⟩, rfl⟩
  intro k ke hk hs
  simp only [initStore, Dict.get?_cons] at hk hs
  rw [if_neg (fun e => hs e.symm)] at hk
  simp [Dict.get?] at hk

end Verif.Delta1
