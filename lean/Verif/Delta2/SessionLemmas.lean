import Verif.Delta2.MakeLemmas
import Verif.Delta2.WireLemmas
/-
Sessions: the compressor and the decompressor stay in step.
-/
namespace Verif.Delta2
open Verif

/-! ### Parameters -/

/-- The limits and the packing of a codec fit together. -/
structure ConfigOk (cfg : Config) : Prop where
  entries : cfg.maxEntries ≤ cfg.maxIndex - 65
  low : 65 ≤ cfg.maxIndex
  high : cfg.maxIndex ≤ 2 ^ 16
  int8 : cfg.ints = .int8 → cfg.maxIndex ≤ 2 ^ 8
  int16 : cfg.ints = .int16 → cfg.maxIndex ≤ 2 ^ 16

theorem ofParams_ok {pyInt : Str → Py Int} {params : List Str} {cfg : Config} (h : Config.ofParams pyInt params = .ok cfg) :
    ConfigOk cfg := by
  have hl : (defaultKvs.length : Int) = 65 := rfl
  simp only [Config.ofParams, bind, Except.bind, pure, Except.pure] at h
  split at h
  · simp at h
  · split at h
    · simp at h
    · rename_i me _
      simp only [Except.ok.injEq] at h
      subst h
      generalize isTrueWithDefault (paramDict params) b!"small_index" true = small
      generalize isTrueWithDefault (paramDict params) b!"varint_encoding" true = vi
      rw [hl]
      have h1 : entriesLimit me ≤ 65470 := by
        cases me with
        | none => simp [entriesLimit]
        | some n => simp only [entriesLimit, hl]; omega
      cases small <;> cases vi <;> constructor <;> simp only [Bool.false_eq_true, if_false, if_true, reduceCtorEq,
        false_implies, true_implies] <;> omega

/-! ### Translating indices -/

/-- The distance of an index. -/
def toL (st : Storage) (i : Int) : Int :=
  match hgIdxToLruIdx st i with
  | .ok j => j
  | .error _ => 0

/-- Replacing the indices of an operation. -/
def mapIdx (f : Int → Int) (op : Op) : Op := { op with index := op.index.map f, indexStart := op.indexStart.map f }

theorem toL_spec {st : Storage} {a b m : Int} (h : StorageOk st a b m) {i : Int} (hl : Live st i) :
    hgIdxToLruIdx st i = .ok (toL st i) ∧ 0 ≤ toL st i ∧ toL st i < st.lru.ring.length + 65 ∧ lruIdxToHgIdx st (toL st i) = .ok i := by
  obtain ⟨j, h1, h2⟩ := toLru_spec h hl
  have : toL st i = j := by simp only [toL, h1]
  rw [this]
  exact ⟨h1, h2⟩

theorem translateOp_to {st : Storage} {a b m : Int} (h : StorageOk st a b m) {op : Op} (hl : IdxLive st op) :
    translateOp (hgIdxToLruIdx st) op = .ok (mapIdx (toL st) op) ∧ translateOp (lruIdxToHgIdx st) (mapIdx (toL st) op) = .ok op := by
  have key : ∀ x : Option Int, (∀ i, x = some i → Live st i) → optMapPy (hgIdxToLruIdx st) x = .ok (x.map (toL st)) ∧
      optMapPy (lruIdxToHgIdx st) (x.map (toL st)) = .ok x := by
    intro x hx
    cases x with
    | none => exact ⟨rfl, rfl⟩
    | some i =>
      obtain ⟨h1, _, _, h2⟩ := toL_spec h (hx i rfl)
      constructor
      · simp only [optMapPy, bind, Except.bind, h1, pure, Except.pure, Option.map_some]
      · simp only [optMapPy, bind, Except.bind, Option.map_some, h2, pure, Except.pure]
  obtain ⟨k1, k2⟩ := key op.index hl.1
  obtain ⟨k3, k4⟩ := key op.indexStart hl.2
  constructor
  · simp only [translateOp, bind, Except.bind, k1, k3, pure, Except.pure, mapIdx]
  · simp only [translateOp, mapIdx, bind, Except.bind, k2, k4, pure, Except.pure]

theorem translateOps_to {st : Storage} {a b m : Int} (h : StorageOk st a b m) (ops : List Op) (hl : ∀ op ∈ ops, IdxLive st op) :
    translateOps (hgIdxToLruIdx st) ops = .ok (ops.map (mapIdx (toL st))) ∧
      translateOps (lruIdxToHgIdx st) (ops.map (mapIdx (toL st))) = .ok ops := by
  induction ops with
  | nil => exact ⟨rfl, rfl⟩
  | cons op ops ih =>
    obtain ⟨a1, a2⟩ := translateOp_to h (hl op (by simp))
    obtain ⟨b1, b2⟩ := ih (fun o ho => hl o (by simp [ho]))
    constructor
    · simp only [translateOps, bind, Except.bind, a1, b1, pure, Except.pure, List.map_cons]
    · simp only [List.map_cons, translateOps, bind, Except.bind, a2, b2, pure, Except.pure]

theorem translateGroups_to {st : Storage} {a b m : Int} (h : StorageOk st a b m) (gs : Groups)
    (hl : ∀ g ∈ gs, ∀ op ∈ g.2, IdxLive st op) :
    translateGroups (hgIdxToLruIdx st) gs = .ok (gs.map fun g => (g.1, g.2.map (mapIdx (toL st)))) := by
  induction gs with
  | nil => rfl
  | cons g gs ih =>
    obtain ⟨oc, ops⟩ := g
    have a1 := (translateOps_to h ops (hl (oc, ops) (by simp))).1
    have b1 := ih (fun g hg => hl g (by simp [hg]))
    simp only [translateGroups, bind, Except.bind, a1, b1, pure, Except.pure, List.map_cons]

/-- The translated operations can be packed, and are translated back. -/
theorem hgToLru_spec {cfg : Config} (hc : ConfigOk cfg) {st : Storage} (h : StorageOk st cfg.maxBytes cfg.maxEntries cfg.maxIndex)
    (gs : Groups) (hg : ∀ g ∈ gs, ∀ op ∈ g.2, op.opcode = g.1 ∧ Shaped op ∧ IdxLive st op ∧ BytesOk op) :
    ∃ gs', hgToLru cfg st gs = .ok gs' ∧ GroupsOk cfg.ints gs' ∧ lruToHg cfg st (gs'.flatMap (·.2)) = .ok (gs.flatMap (·.2)) := by
  have hint : ∀ j : Int, 0 ≤ j → j < cfg.maxIndex → IntOk cfg.ints j := by
    intro j h0 h1
    have h8 := hc.int8
    have h16 := hc.int16
    cases hi : cfg.ints with
    | int8 => exact ⟨h0, by have := h8 hi; omega⟩
    | int16 => exact ⟨h0, by have := h16 hi; omega⟩
    | varint => exact h0
  by_cases hf : cfg.fromEnd = true
  · refine ⟨gs.map fun g => (g.1, g.2.map (mapIdx (toL st))), ?_, ?_, ?_⟩
    · rw [hgToLru, if_pos hf]
      exact translateGroups_to h gs (fun g hg' op hop => (hg g hg' op hop).2.2.1)
    · intro g hg' op hop
      obtain ⟨g, hgm, rfl⟩ := List.mem_map.1 hg'
      obtain ⟨op, hopm, rfl⟩ := List.mem_map.1 hop
      obtain ⟨h1, h2, h3, h4⟩ := hg g hgm op hopm
      have hj : ∀ i, Live st i → IntOk cfg.ints (toL st i) := by
        intro i hi
        obtain ⟨_, k0, k1, _⟩ := toL_spec h hi
        refine hint _ k0 ?_
        have := h.entries
        have := hc.entries
        have := hc.low
        omega
      refine ⟨h1, ⟨fun f => ?_, ⟨fun v hv => ?_, fun v hv => ?_, h4.1, h4.2⟩⟩⟩
      · rw [show (mapIdx (toL st) op).opcode = op.opcode from rfl, ← h2 f]
        cases f <;> simp [Op.has, mapIdx]
      · simp only [mapIdx, Option.map_eq_some_iff] at hv
        obtain ⟨i, hi, rfl⟩ := hv
        exact hj i (h3.1 i hi)
      · simp only [mapIdx, Option.map_eq_some_iff] at hv
        obtain ⟨i, hi, rfl⟩ := hv
        exact hj i (h3.2 i hi)
    · rw [lruToHg, if_pos hf]
      have : (gs.map fun g => (g.1, g.2.map (mapIdx (toL st)))).flatMap (·.2) = (gs.flatMap (·.2)).map (mapIdx (toL st)) := by
        rw [List.flatMap_map, List.map_flatMap]
      rw [this]
      refine (translateOps_to h _ fun op hop => ?_).2
      obtain ⟨g, hg', hop⟩ := List.mem_flatMap.1 hop
      exact (hg g hg' op hop).2.2.1
  · refine ⟨gs, by rw [hgToLru, if_neg hf], ?_, by rw [lruToHg, if_neg hf]⟩
    intro g hg' op hop
    obtain ⟨h1, h2, h3, h4⟩ := hg g hg' op hop
    have hj : ∀ i, Live st i → IntOk cfg.ints i := by
      intro i hi
      have := live_range h hi
      have := hc.low
      exact hint i (by omega) (by omega)
    exact ⟨h1, ⟨h2, ⟨fun v hv => hj v (h3.1 v hv), fun v hv => hj v (h3.2 v hv), h4.1, h4.2⟩⟩⟩

/-! ### One message -/

/-- What is decoded for some headers: the same pieces if the cookies have no NUL, and never a cookie with a NUL. -/
structure Decoded (headers out : Dict Str Str) : Prop where
  pieces : (∀ v, (b!"cookie", v) ∈ headers → 0 ∉ v) → ∀ x, x ∈ out.flatMap splitHeader ↔ x ∈ headers.flatMap splitHeader
  noNul : ∀ v, (b!"cookie", v) ∈ out → 0 ∉ v

theorem mem_of_split {c : Nat} {v p : Str} (h : p ∈ splitOn c v) {x : Nat} (hx : x ∈ p) : x ∈ v := by
  rw [← joinWith_splitOn c v]
  generalize splitOn c v = qs at h
  induction qs with
  | nil => simp at h
  | cons q qs ih =>
    cases qs with
    | nil =>
      simp only [List.mem_cons, List.not_mem_nil, or_false] at h
      subst h
      simpa [joinWith] using hx
    | cons r rs =>
      simp only [joinWith, List.mem_append]
      rcases List.mem_cons.1 h with rfl | h
      · exact .inl (.inl hx)
      · exact .inr (ih h)

theorem headersSet_bytes {h : Dict Str Str} (hb : ∀ kv ∈ h, (∀ c ∈ kv.1, c < 256) ∧ ∀ c ∈ kv.2, c < 256) :
    ∀ x ∈ headersSet h, (∀ c ∈ x.1, c < 256) ∧ ∀ c ∈ x.2, c < 256 := by
  intro x hx
  rw [mem_headersSet, List.mem_flatMap] at hx
  obtain ⟨⟨k, v⟩, hkv, hx⟩ := hx
  obtain ⟨k', y⟩ := x
  have := splitHeader_fst hx
  simp only at this
  subst this
  rw [mem_splitHeader] at hx
  obtain ⟨p, hp, rfl⟩ := hx
  exact ⟨(hb _ hkv).1, fun c hc => (hb _ hkv).2 c (mem_of_split hp (stripBy_sub hc))⟩

/-- The compressor's half of a message, and what the decompressor makes of the same operations. -/
theorem message_spec {cfg : Config} (hc : ConfigOk cfg) {o : Orders} (ho : o.Ok) {s : Codec} (h : CodecOk cfg s)
    (headers : Dict Str Str) (hb : ∀ kv ∈ headers, (∀ c ∈ kv.1, c < 256) ∧ ∀ c ∈ kv.2, c < 256) (gid : Nat) :
    ∃ s' gs, makeOperations cfg o s headers gid = .ok (s', gs) ∧ CodecOk cfg s' ∧ GroupsOk cfg.ints gs ∧
      ∀ ord : List Int → List Int, (∀ l, (ord l).Perm l) → ∃ out, execute cfg ord s (gs.flatMap (·.2)) gid = .ok (s', out) ∧
        Decoded headers out := by
  have hm := h.findOrMake gid
  have hst := findOrMake_storage s gid
  have hgr := findOrMake_group s gid
  obtain ⟨gs, e1, hgood, hrun, hpairs⟩ := makeInstructions_spec hc.high ho hm headers (headersSet_bytes hb) gid
  rw [hst] at hgood hrun hpairs
  rw [hgr] at hpairs
  obtain ⟨gs', e2, hg2, hback⟩ := hgToLru_spec hc h.storage gs hgood
  obtain ⟨s', hs', hex⟩ := execute_spec hc.entries h gid (gs'.flatMap (·.2)) (gs.flatMap (·.2)) hback hrun
  refine ⟨s', gs', ?_, hs', hg2, fun ord hord => ⟨_, hex ord hord, ⟨fun hck x => ?_, fun v hv => fixCookie_noNul _ hv⟩⟩⟩
  · simp only [makeOperations, bind, Except.bind, e1, hst, e2, execute_make, hex o.refsC ho.refsC, pure, Except.pure]
  · refine same_pieces (fun y => ?_) hck x
    rw [← mem_headersSet, ← hpairs y, List.mem_append, List.mem_map]
    refine or_congr Iff.rfl (exists_congr fun i => and_congr (hord _).mem_iff Iff.rfl)

/-! ### Hosts -/

/-- All group ids fit a byte. -/
structure HostsOk (c : Compressor) : Prop where
  ids : c.ids.ids = []
  max : c.ids.maxId = 255
  next : c.ids.next < 256
  hosts : ∀ g ∈ c.hosts, g.2 < 256

theorem groupOf_spec (u : Setup) {c : Compressor} (h : HostsOk c) (host : Str) :
    HostsOk (groupOf u c host).1 ∧ (groupOf u c host).1.codec = c.codec ∧ (groupOf u c host).2 < 256 := by
  unfold groupOf
  split
  · rename_i gid hg
    exact ⟨h, rfl, h.hosts _ (Dict.get?_mem hg)⟩
  · have hg : getNext id c.ids = ({ c.ids with next := (if c.ids.next + 1 ≥ 255 then 0 else c.ids.next + 1) },
        if c.ids.next + 1 ≥ 255 then 0 else c.ids.next + 1) := by
      simp only [getNext, id, h.ids, h.max]
      simp
    have hlt : (if c.ids.next + 1 ≥ 255 then 0 else c.ids.next + 1) < 256 := by
      split <;> omega
    rw [hg]
    refine ⟨⟨h.ids, h.max, hlt, fun g hgm => ?_⟩, rfl, hlt⟩
    have hsub : ∀ (d : Dict Str Nat) (k : Str) (v : Nat), (∀ g ∈ d, g.2 < 256) → v < 256 → ∀ g ∈ Dict.set d k v, g.2 < 256 := by
      intro d k v hd hv
      induction d with
      | nil =>
        intro g hg
        simp only [Dict.set, List.mem_singleton] at hg
        subst hg
        exact hv
      | cons x d ih =>
        obtain ⟨k', v'⟩ := x
        intro g hg
        simp only [Dict.set] at hg
        split at hg
        · rcases List.mem_cons.1 hg with rfl | hg
          · exact hv
          · exact hd g (by simp [hg])
        · rcases List.mem_cons.1 hg with rfl | hg
          · exact hd _ (by simp)
          · exact ih (fun g hg => hd g (by simp [hg])) g hg
    exact hsub _ _ _ h.hosts hlt g hgm

/-! ### Sessions -/

/-- A message of byte strings, and orders that are orders. -/
structure MessageOk (m : Message) : Prop where
  orders : m.orders.Ok
  bytes : ∀ kv ∈ m.headers, (∀ c ∈ kv.1, c < 256) ∧ ∀ c ∈ kv.2, c < 256

/-- Compressing a message never fails; the decompressor in the same state, given a blob that fits a frame, gets into the
same state again and gives the same pieces. -/
theorem compress_spec {u : Setup} (hc : ConfigOk u.cfg) (hh : IsCoder u.huffman) {c : Compressor} (h : CodecOk u.cfg c.codec)
    (hk : HostsOk c) {m : Message} (hm : MessageOk m) :
    ∃ c' blob, compress u m.orders c m.headers m.host = .ok (c', blob) ∧ CodecOk u.cfg c'.codec ∧ HostsOk c' ∧
      (blob.length ≤ 65536 → ∃ out, decompress u m.orders c.codec blob = .ok (c'.codec, out) ∧
        Decoded m.headers out) := by
  obtain ⟨k1, k2, k3⟩ := groupOf_spec u hk m.host
  generalize hg : groupOf u c m.host = r at k1 k2 k3
  obtain ⟨s', gs, e1, hs', hgs, hex⟩ := message_spec hc hm.orders h m.headers hm.bytes r.2
  obtain ⟨codes, hcodes⟩ := hh.codes
  obtain ⟨blob, e2, _, hlen, e3⟩ := wire_spec (p := u.packing) hcodes gs hgs r.2 k3
  refine ⟨{ r.1 with codec := s' }, blob, ?_, hs', ⟨k1.ids, k1.max, k1.next, k1.hosts⟩, fun hfit => ?_⟩
  · simp only [compress, hg, k2, bind, Except.bind, e1, e2, pure, Except.pure]
  · obtain ⟨out, e4, hout⟩ := hex m.orders.refsD hm.orders.refsD
    refine ⟨out, ?_, hout⟩
    rw [show u.packing.ints = u.cfg.ints from rfl] at e3 hlen
    rw [taken_all hcodes _ (blocks_ok hgs) _ _ (by omega), blocks_flat] at e3
    simp only [decompress, executeReal, bind, Except.bind, e3, execute_make, e4]

theorem session_spec {u : Setup} (hc : ConfigOk u.cfg) (hh : IsCoder u.huffman) (ms : List Message) (hm : ∀ m ∈ ms, MessageOk m) :
    ∀ c : Compressor, CodecOk u.cfg c.codec → HostsOk c →
    ∃ c' blobs, compressAll u ms c = .ok (c', blobs) ∧ blobs.length = ms.length ∧
      ((∀ b ∈ blobs, b.length ≤ 65536) → ∃ outs, decompressAll u ((ms.map (·.orders)).zip blobs) c.codec = .ok (c'.codec, outs) ∧
        List.Forall₂ (fun m out => Decoded m.headers out) ms outs) := by
  induction ms with
  | nil => intro c _ _; exact ⟨c, [], rfl, rfl, fun _ => ⟨[], rfl, .nil⟩⟩
  | cons m ms ih =>
    intro c h hk
    obtain ⟨c1, blob, e1, h1, hk1, hd1⟩ := compress_spec hc hh h hk (hm m (by simp))
    obtain ⟨c2, blobs, e2, hl, hd2⟩ := ih (fun m hm' => hm m (by simp [hm'])) c1 h1 hk1
    refine ⟨c2, blob :: blobs, ?_, by simp [hl], fun hfit => ?_⟩
    · simp only [compressAll, bind, Except.bind, e1, e2, pure, Except.pure]
    · obtain ⟨out, e3, ho⟩ := hd1 (hfit blob (by simp))
      obtain ⟨outs, e4, hos⟩ := hd2 (fun b hb => hfit b (by simp [hb]))
      refine ⟨out :: outs, ?_, .cons ho hos⟩
      simp only [List.map_cons, List.zip_cons_cons, decompressAll, bind, Except.bind, e3, e4, pure, Except.pure]

theorem init_ok {cfg : Config} : ∃ s, Codec.init cfg = .ok s ∧ CodecOk cfg s ∧ s.groups = [] := by
  obtain ⟨st, e, h, _⟩ := storage_init cfg.maxBytes cfg.maxEntries cfg.maxIndex
  exact ⟨{ storage := st }, by simp only [Codec.init, bind, Except.bind, e, pure, Except.pure], ⟨h, Dict.wf_nil, by simp⟩, rfl⟩

end Verif.Delta2
