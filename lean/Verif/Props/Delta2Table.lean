import Verif.Delta2.TableStep
import Verif.Props.Delta2Repeat
/-
Property theorems about what a message of delta2 does to the tables and to the header groups of other hosts (C137).
-/
namespace Verif.Props
open Verif Verif.Huff Verif.Delta2 Verif.Lib Verif.Lib.Spec

/-! ### C137 -/

/-- The names and values of entries. -/
def entryPairs (es : List Entry) : List Hdr := es.map fun e => (e.kv.key, e.kv.val)

theorem compress_step {u : Setup} (hu : Processor u) {c : Compressor} (h : CodecOk u.cfg c.codec) (hk : HostsOk c)
    {m : Delta2.Message} (hm : MessageOk m) {c' : Compressor} {blob : Str} (hc : compress u m.orders c m.headers m.host = .ok (c', blob)) :
    CodecOk u.cfg c'.codec ∧ ∃ gone kept added stored copied,
      TableStep u.cfg c.codec c'.codec (groupOf u c m.host).2 gone kept added (stored ++ copied) ∧
      (u.cfg.hgAdjust = false → copied = []) ∧ stored.Nodup ∧
      ∀ x, x ∈ stored ↔ Sends m.headers x ∧ ¬ TableHas c.codec.storage x ∧ x.1 ≠ b!":path" := by
  obtain ⟨c1, blob1, e0, h', _⟩ := compress_spec (processor_ok hu) hu.coder h hk hm
  rw [hc] at e0
  cases e0
  refine ⟨h', ?_⟩
  obtain ⟨k1, k2, k3⟩ := groupOf_spec u hk m.host
  generalize hg : groupOf u c m.host = r at k1 k2 k3 ⊢
  simp only [compress, hg, k2, bind, Except.bind, pure, Except.pure] at hc
  split at hc
  · cases hc
  · rename_i q hq
    obtain ⟨s1, gs⟩ := q
    simp only at hc
    split at hc
    · cases hc
    · cases hc
      obtain ⟨gone, kept, added, stored, copied, h1, h2, h3, h4⟩ := message_step (processor_ok hu) hm.orders h m.headers hm.bytes r.2 hq
      refine ⟨gone, kept, added, stored, copied, h1, h2, h3, fun x => ?_⟩
      rw [h4, sends_iff, tableHas_iff]

/-- C137, with `hg_adjust` off, as by default, and whatever was sent before: a message takes the oldest entries out of the dynamic
table and puts new ones behind the rest.  What it wants to store are its headers that are in neither table and are no `:path`, each
once, in some order; the new entries are the last of these, and all of them unless none of the old entries is left. -/
theorem C137_table (u : Setup) (hu : Processor u) (hadj : u.cfg.hgAdjust = false) (hz : u.cfg.maxBytes ≠ 0) (c0 : Compressor) (d : Codec)
    (hf : Fresh u c0 d) (before : List Delta2.Message) (hb : ∀ m ∈ before, MessageOk m) (c : Compressor) (blobs : List Str)
    (hc : compressAll u before c0 = .ok (c, blobs)) (m : Delta2.Message) (hm : MessageOk m) (c' : Compressor) (blob : Str)
    (hx : compress u m.orders c m.headers m.host = .ok (c', blob)) :
    ∃ (gone kept added : List Entry) (wanted : List Hdr), c.codec.storage.lru.ring = gone ++ kept ∧
      c'.codec.storage.lru.ring = kept ++ added ∧ c'.codec.storage.static = c.codec.storage.static ∧
      wanted.Nodup ∧ (∀ x, x ∈ wanted ↔ Sends m.headers x ∧ ¬ TableHas c.codec.storage x ∧ x.1 ≠ b!":path") ∧
      entryPairs added <:+ wanted ∧ (entryPairs added = wanted ∨ kept = []) := by
  obtain ⟨h1, h2, _⟩ := reach_ok hu hf before hb hc
  obtain ⟨_, gone, kept, added, stored, copied, ht, h4, h5, h6⟩ := compress_step hu h1 h2 hm hx
  have := h4 hadj
  subst this
  rw [List.append_nil] at ht
  exact ⟨gone, kept, added, stored, ht.old, ht.new, ht.static, h5, h6, ht.last hz, ht.lost hz⟩

/-- The bytes of some headers, as the codec counts them when it shares nothing. -/
def hdrBytes (l : List Hdr) : Int := (l.map fun x => (x.1.length : Int) + x.2.length).sum

/-- C137, with `hg_adjust` off, as by default, and whatever was sent before: if there is room for the headers of the message that are
in neither table, its `:path` excepted, no entry is removed, and after it the tables have all its headers but the `:path`. -/
theorem C137_room (u : Setup) (hu : Processor u) (hadj : u.cfg.hgAdjust = false) (hz : u.cfg.maxBytes ≠ 0) (c0 : Compressor) (d : Codec)
    (hf : Fresh u c0 d) (before : List Delta2.Message) (hb : ∀ m ∈ before, MessageOk m) (c : Compressor) (blobs : List Str)
    (hc : compressAll u before c0 = .ok (c, blobs)) (m : Delta2.Message) (hm : MessageOk m) (c' : Compressor) (blob : Str)
    (hx : compress u m.orders c m.headers m.host = .ok (c', blob)) (new : List Hdr)
    (hnew : ∀ x, Sends m.headers x → ¬ TableHas c.codec.storage x → x.1 ≠ b!":path" → x ∈ new)
    (hbytes : c.codec.storage.lru.byteSize + hdrBytes new ≤ u.cfg.maxBytes)
    (hitems : (c.codec.storage.lru.ring.length : Int) + new.length ≤ u.cfg.maxEntries) :
    c.codec.storage.lru.ring <+: c'.codec.storage.lru.ring ∧ c'.codec.storage.static = c.codec.storage.static ∧
      ∀ x, Sends m.headers x → TableHas c'.codec.storage x ∨ x.1 = b!":path" := by
  obtain ⟨h1, h2, _⟩ := reach_ok hu hf before hb hc
  obtain ⟨_, gone, kept, added, stored, copied, ht, h4, h5, h6⟩ := compress_step hu h1 h2 hm hx
  have := h4 hadj
  subst this
  rw [List.append_nil] at ht
  have hsub : List.Subperm stored new := List.subperm_of_subset h5 fun x hx => by
    obtain ⟨x1, x2, x3⟩ := (h6 x).1 hx
    exact hnew x x1 x2 x3
  obtain ⟨l, hl, hl2⟩ := hsub
  have hlen : stored.length ≤ new.length := by rw [← hl.length_eq]; exact hl2.length_le
  have hby : pairBytes stored ≤ pairBytes new := by
    have e1 : pairBytes stored = pairBytes l := by
      unfold pairBytes
      exact (hl.symm.map _).sum_eq
    rw [e1]
    exact pairBytes_sublist hl2
  obtain ⟨r1, r2, _⟩ := ht.room ⟨hz, by
    have : hdrBytes new = pairBytes new := rfl
    omega, by omega⟩
  have hold := ht.old
  rw [r1, List.nil_append] at hold
  refine ⟨⟨added, by rw [ht.new, hold]⟩, ht.static, fun x hs => ?_⟩
  by_cases hp : x.1 = b!":path"
  · exact .inr hp
  · left
    rw [tableHas_iff]
    by_cases hin : TableHas c.codec.storage x
    · obtain ⟨e, he, hex⟩ := tableHas_iff.1 hin
      refine ⟨e, ?_, hex⟩
      rw [ht.static, ht.new, ← hold]
      simp only [List.mem_append] at he ⊢
      tauto
    · have := (h6 x).2 ⟨hs, hin, hp⟩
      rw [← r2] at this
      obtain ⟨e, he, hex⟩ := List.mem_map.1 this
      refine ⟨e, ?_, hex⟩
      rw [ht.new]
      simp [he]

/-- C137, with `hg_adjust` and `only_etoggles` off, as by default, and whatever was sent before: if there is room for the new headers of
a message without a `:path` other than "/", then from its third sending on it is free. -/
theorem C137_third (u : Setup) (hu : Processor u) (he : u.cfg.onlyEtoggles = false) (hadj : u.cfg.hgAdjust = false)
    (hz : u.cfg.maxBytes ≠ 0) (c0 : Compressor) (d : Codec) (hf : Fresh u c0 d) (before : List Delta2.Message)
    (hb : ∀ m ∈ before, MessageOk m) (c : Compressor) (blobs : List Str) (hc : compressAll u before c0 = .ok (c, blobs))
    (m : Delta2.Message) (hm : MessageOk m) (hpath : ∀ v, Sends m.headers (b!":path", v) → v = b!"/") (new : List Hdr)
    (hnew : ∀ x, Sends m.headers x → ¬ TableHas c.codec.storage x → x ∈ new)
    (hbytes : c.codec.storage.lru.byteSize + hdrBytes new ≤ u.cfg.maxBytes)
    (hitems : (c.codec.storage.lru.ring.length : Int) + new.length ≤ u.cfg.maxEntries)
    (c1 : Compressor) (blob1 : Str) (hx1 : compress u m.orders c m.headers m.host = .ok (c1, blob1))
    (m2 : Delta2.Message) (hm2 : MessageOk m2) (again : List Delta2.Message)
    (h2 : m2.host = m.host ∧ ∀ x, Sends m2.headers x ↔ Sends m.headers x)
    (ha : ∀ m' ∈ again, MessageOk m' ∧ m'.host = m.host ∧ ∀ x, Sends m'.headers x ↔ Sends m.headers x)
    (c2 : Compressor) (blob2 : Str) (hx2 : compress u m2.orders c1 m2.headers m2.host = .ok (c2, blob2))
    (c3 : Compressor) (blobs3 : List Str) (hx3 : compressAll u again c2 = .ok (c3, blobs3)) :
    ∀ b ∈ blobs3, b.length = 9 := by
  obtain ⟨p1, p2, p3⟩ := C137_room u hu hadj hz c0 d hf before hb c blobs hc m hm c1 blob1 hx1 new (fun x h1 h2 _ => hnew x h1 h2) hbytes hitems
  obtain ⟨q1, _, _⟩ := reach_ok hu hf before hb hc
  have hc1 : compressAll u (before ++ [m]) c0 = .ok (c1, blobs ++ [blob1]) := by
    clear hf q1 p1 p2 p3 hnew hbytes hitems
    induction before generalizing c0 blobs with
    | nil =>
      cases hc
      simp [compressAll, bind, Except.bind, hx1, pure, Except.pure]
    | cons y ys ih =>
      simp only [compressAll, bind, Except.bind] at hc
      split at hc
      · cases hc
      · rename_i r hr
        split at hc
        · cases hc
        · rename_i r2 hr2
          cases hc
          have := ih r.1 (fun m hm => hb m (by simp [hm])) r2.2 hr2
          simp only [List.cons_append, compressAll, bind, Except.bind, hr, this, pure, Except.pure]
  have hroot : ∃ e ∈ c.codec.storage.static.ring, e.kv.key = b!":path" := path_static q1.storage
  refine (C136_repeat u hu he hadj c0 d hf (before ++ [m]) (fun y hy => ?_) c1 _ hc1 m2 hm2 (fun x hx => ?_) c2 blob2 hx2 again
    (fun m' hm' => ?_) c3 blobs3 hx3).2.2
  · rcases List.mem_append.1 hy with hy | hy
    · exact hb y hy
    · simp only [List.mem_singleton] at hy
      rw [hy]
      exact hm
  · have hx := (h2.2 x).1 hx
    rcases p3 x hx with h | h
    · exact h
    · obtain ⟨k, v⟩ := x
      simp only at h
      subst h
      have hv := hpath v hx
      subst hv
      obtain ⟨e, he, hek⟩ := hroot
      left
      rw [p2]
      exact ⟨e, he, hek, static_path q1.storage he hek⟩
  · obtain ⟨a1, a2, a3⟩ := ha m' hm'
    exact ⟨a1, a2.trans h2.1.symm, fun x => (a3 x).trans (h2.2 x).symm⟩

theorem lookup_same_static {st st' : Storage} (h : st'.static = st.static) {i : Int} (hi : i < st.static.ring.length) :
    lookupFromIdx st' i = lookupFromIdx st i := by
  simp only [lookupFromIdx, h, if_pos hi]

/-- C137, with any parameters and whatever was sent before: a message for one host takes exactly those entries out of the header
group of another that leave the dynamic table, which are the oldest.  All others stay, in their order, and stand for the same name and
value as before, also if the index of an entry that left has been given to a new one. -/
theorem C137_others (u : Setup) (hu : Processor u) (c0 : Compressor) (d : Codec) (hf : Fresh u c0 d)
    (before : List Delta2.Message) (hb : ∀ m ∈ before, MessageOk m) (c : Compressor) (blobs : List Str)
    (hc : compressAll u before c0 = .ok (c, blobs)) (m : Delta2.Message) (hm : MessageOk m) (c' : Compressor) (blob : Str)
    (hx : compress u m.orders c m.headers m.host = .ok (c', blob)) :
    ∃ gone kept added : List Entry, c.codec.storage.lru.ring = gone ++ kept ∧ c'.codec.storage.lru.ring = kept ++ added ∧
      ∀ g, g ≠ (groupOf u c m.host).2 →
        (c'.codec.group g = (c.codec.group g).filter fun i => ∀ e ∈ gone, e.seq ≠ i) ∧
        ∀ i ∈ c'.codec.group g, ∃ e, lookupFromIdx c.codec.storage i = .ok e ∧ lookupFromIdx c'.codec.storage i = .ok e := by
  obtain ⟨h1, h2, _⟩ := reach_ok hu hf before hb hc
  obtain ⟨h1', gone, kept, added, stored, copied, ht, _⟩ := compress_step hu h1 h2 hm hx
  refine ⟨gone, kept, added, ht.old, ht.new, fun g hg => ⟨ht.groups g hg, fun i hi => ?_⟩⟩
  rw [ht.groups g hg, List.mem_filter] at hi
  obtain ⟨hi, hgone⟩ := hi
  simp only [decide_eq_true_eq] at hgone
  have hl := (h1.group g).2 i hi
  obtain ⟨e, he⟩ := lookup_live h1.storage hl
  rcases hl with ⟨_, hlt⟩ | ⟨e', he', rfl⟩
  · refine ⟨e, he, ?_⟩
    rw [lookup_same_static ht.static (by rw [h1.storage.len]; exact hlt)]
    exact he
  · refine ⟨e', lookup_ring h1.storage he', lookup_ring h1'.storage ?_⟩
    rw [ht.old] at he'
    rw [ht.new]
    rcases List.mem_append.1 he' with he' | he'
    · exact absurd rfl (hgone e' he')
    · exact List.mem_append.2 (.inl he')

theorem static_nodup {st : Storage} {a b m : Int} (h : StorageOk st a b m) : (entryPairs st.static.ring).Nodup := by
  have : entryPairs st.static.ring = defaultKvs := by
    have := congrArg (List.map fun x : Str × Str × Int => (x.1, x.2.1)) h.static
    rw [List.map_map, List.map_map] at this
    rw [entryPairs]
    refine Eq.trans (by rfl) (this.trans ?_)
    decide +kernel
  rw [this]
  decide +kernel

/-- C137, with `hg_adjust` off, as by default: whatever is sent, no pair of a name and a value is ever twice in the tables. -/
theorem C137_once (u : Setup) (hu : Processor u) (hadj : u.cfg.hgAdjust = false) (c0 : Compressor) (d : Codec) (hf : Fresh u c0 d)
    (ms : List Delta2.Message) (hms : ∀ m ∈ ms, MessageOk m) (c : Compressor) (blobs : List Str)
    (hc : compressAll u ms c0 = .ok (c, blobs)) :
    (entryPairs (c.codec.storage.static.ring ++ c.codec.storage.lru.ring)).Nodup := by
  obtain ⟨h0, h1, h2⟩ := fresh_ok hf
  have h3 : (entryPairs (c0.codec.storage.static.ring ++ c0.codec.storage.lru.ring)).Nodup := by
    have hn := static_nodup h1.storage
    obtain ⟨hi, rfl⟩ := hf
    simp only [Codec.init, bind, Except.bind] at hi
    split at hi
    · cases hi
    · rename_i st hst
      cases hi
      obtain ⟨st', e, _, hr⟩ := storage_init u.cfg.maxBytes u.cfg.maxEntries u.cfg.maxIndex
      rw [hst] at e
      cases e
      simpa [hr] using hn
  clear hf h0
  induction ms generalizing c0 blobs with
  | nil => cases hc; exact h3
  | cons m ms ih =>
    obtain ⟨c1, blob, e1, k1, k2, _⟩ := compress_spec (processor_ok hu) hu.coder h1 h2 (hms m (by simp))
    simp only [compressAll, bind, Except.bind, e1] at hc
    split at hc
    · cases hc
    · rename_i r hr
      cases hc
      refine ih _ (fun m hm => hms m (by simp [hm])) _ hr k1 k2 ?_
      obtain ⟨_, gone, kept, added, stored, copied, ht, h4, h5, h6⟩ := compress_step hu h1 h2 (hms m (by simp)) e1
      have := h4 hadj
      subst this
      rw [List.append_nil] at ht
      rw [ht.old] at h3
      rw [ht.new, ht.static]
      have hadd : (entryPairs added).Nodup := h5.sublist ht.from_seen
      have hnew : ∀ x ∈ entryPairs added, x ∉ entryPairs (c0.codec.storage.static.ring ++ (gone ++ kept)) := by
        intro x hx hin
        refine ((h6 x).1 (ht.from_seen.subset hx)).2.1 (tableHas_iff.2 ?_)
        obtain ⟨e, he, hex⟩ := List.mem_map.1 hin
        rw [← ht.old] at he
        exact ⟨e, he, hex⟩
      have hsub : (entryPairs (c0.codec.storage.static.ring ++ kept)).Sublist
          (entryPairs (c0.codec.storage.static.ring ++ (gone ++ kept))) :=
        List.Sublist.map _ ((List.Sublist.refl _).append (List.sublist_append_right _ _))
      rw [← List.append_assoc]
      show (List.map _ (_ ++ added)).Nodup
      rw [List.map_append]
      exact List.Nodup.append (h3.sublist hsub) hadd fun x hx hy => hnew x hy (hsub.subset hx)

/-! ### Two hosts and a small table -/

/-- The second host sends more than a table of four entries holds beside the headers of the first. -/
def twoHosts : List Delta2.Message :=
  [⟨[(b!":path", b!"/a"), (b!"x", b!"1"), (b!"y", b!"2"), (b!"accept", b!"*/*")], b!"www.a.com", plainOrders⟩,
   ⟨[(b!":path", b!"/a"), (b!"x", b!"1"), (b!"y", b!"2"), (b!"accept", b!"*/*")], b!"www.a.com", plainOrders⟩,
   ⟨[(b!":path", b!"/b"), (b!"x", b!"1"), (b!"z", b!"3"), (b!"v", b!"4")], b!"www.b.com", reverseOrders⟩]

/-- The codec after some messages, when `compress` found these groups for their hosts; the Huffman coder plays no part in it. -/
def operateAll (cfg : Config) : List (Delta2.Message × Nat) → Codec → Py Codec
  | [], s => .ok s
  | (m, gid) :: ms, s => do
    let (s, _) ← makeOperations cfg m.orders s m.headers gid
    operateAll cfg ms s

theorem compressAll_operate (u : Setup) (ms : List Delta2.Message) : ∀ (c : Compressor) (c' : Compressor) (blobs : List Str), HostsOk c →
    compressAll u ms c = .ok (c', blobs) → ∃ gids : List Nat, gids.length = ms.length ∧ operateAll u.cfg (ms.zip gids) c.codec = .ok c'.codec := by
  induction ms with
  | nil => intro c c' blobs _ h; cases h; exact ⟨[], rfl, rfl⟩
  | cons m ms ih =>
    intro c c' blobs hk h
    obtain ⟨k1, k2, k3⟩ := groupOf_spec u hk m.host
    simp only [compressAll, compress, bind, Except.bind, pure, Except.pure] at h
    split at h
    · cases h
    · rename_i q hq
      split at hq
      · cases hq
      · rename_i w hw
        obtain ⟨s1, gs⟩ := w
        simp only at hq
        split at hq
        · cases hq
        · cases hq
          simp only at h
          split at h
          · cases h
          · rename_i z hz
            cases h
            obtain ⟨gids, g1, g2⟩ := ih { (groupOf u c m.host).1 with codec := s1 } _ _ ⟨k1.1, k1.2, k1.3, k1.4⟩ hz
            refine ⟨(groupOf u c m.host).2 :: gids, by simp [g1], ?_⟩
            rw [k2] at hw
            simp only [List.zip_cons_cons, operateAll, bind, Except.bind, hw]
            exact g2

/-- The indices of the dynamic table, its headers, and the group of the first host after each of the messages; at most `n` entries. -/
def runTwo (n : Int) (adjust : Bool) : Py (List (List Int × List Hdr × List Int)) := do
  let cfg : Config := ⟨4096, n, 69, .varint, adjust, false, false, false, false⟩
  let d ← Codec.init cfg
  [1, 2, 3].mapM fun k => do
    let s ← operateAll cfg ((twoHosts.zip [1, 1, 2]).take k) d
    pure (s.storage.lru.ring.map (·.seq), entryPairs s.storage.lru.ring, s.group 1)

/-- Index 65, of "accept", is in the group of the first host when the third message takes it away and gives it to "z". -/
example : ((runTwo 4 false).toOption.map fun l => l.map fun x => (x.1, x.2.2)) = some
    [([65, 66, 67], []), ([65, 66, 67], [65, 66, 67]), ([66, 67, 68, 65], [66, 67])] ∧
  ((runTwo 4 false).toOption.map fun l => l.map fun x => x.2.1) = some
    [[(b!"accept", b!"*/*"), (b!"x", b!"1"), (b!"y", b!"2")],
     [(b!"accept", b!"*/*"), (b!"x", b!"1"), (b!"y", b!"2")],
     [(b!"x", b!"1"), (b!"y", b!"2"), (b!"v", b!"4"), (b!"z", b!"3")]] := by decide +kernel

/-- With `hg_adjust` a pair is in the table twice, so C137_once needs its hypothesis. -/
example : ((runTwo 4 true).toOption.map fun l => l.map fun x => x.2.1) = some
    [[(b!"accept", b!"*/*"), (b!"x", b!"1"), (b!"y", b!"2")],
     [(b!"y", b!"2"), (b!"accept", b!"*/*"), (b!"x", b!"1"), (b!"y", b!"2")],
     [(b!"y", b!"2"), (b!"v", b!"4"), (b!"z", b!"3"), (b!"x", b!"1")]] := by decide +kernel

/-- The hypotheses hold of these messages and parameters. -/
example : ∃ u, Processor u ∧ u.cfg.hgAdjust = false ∧ u.cfg.maxBytes ≠ 0 ∧ ∃ c0 d, Fresh u c0 d ∧ ∀ m ∈ twoHosts, MessageOk m := by
  obtain ⟨h, _, hc⟩ := coder_shipped requestTable (.inl rfl)
  obtain ⟨c0, d, hf⟩ := C28_fresh ⟨⟨4096, 190, 255, .varint, false, false, false, false, true⟩, h, id⟩
  refine ⟨_, ⟨⟨fun _ => .error .value, [], rfl⟩, hc⟩, rfl, (by decide : (4096 : Int) ≠ 0), c0, d, hf, ?_⟩
  intro m hm
  simp only [twoHosts, List.mem_cons, List.not_mem_nil, or_false] at hm
  rcases hm with rfl | rfl | rfl
  · exact ⟨plainOrders_ok, by decide +kernel⟩
  · exact ⟨plainOrders_ok, by decide +kernel⟩
  · exact ⟨reverseOrders_ok, by decide +kernel⟩

/-- A new compressor with the default parameters has room for the message of `fourTimes`, so it is free from the third time on. -/
example : ∃ u, Processor u ∧ u.cfg.onlyEtoggles = false ∧ u.cfg.hgAdjust = false ∧ u.cfg.maxBytes ≠ 0 ∧ ∃ c0 d, Fresh u c0 d ∧
    ∀ m ∈ fourTimes b!"/", (∀ v, Sends m.headers (b!":path", v) → v = b!"/") ∧ ∃ new : List Hdr, (∀ x, Sends m.headers x → x ∈ new) ∧
      c0.codec.storage.lru.byteSize + hdrBytes new ≤ u.cfg.maxBytes ∧
      (c0.codec.storage.lru.ring.length : Int) + new.length ≤ u.cfg.maxEntries := by
  obtain ⟨h, _, hc⟩ := coder_shipped requestTable (.inl rfl)
  obtain ⟨c0, d, hf⟩ := C28_fresh ⟨⟨4096, 190, 255, .varint, false, false, false, false, true⟩, h, id⟩
  refine ⟨_, ⟨⟨fun _ => .error .value, [], rfl⟩, hc⟩, rfl, rfl, (by decide : (4096 : Int) ≠ 0), c0, d, hf, ?_⟩
  have hz : ((Codec.init ⟨4096, 190, 255, .varint, false, false, false, false, true⟩).toOption.map fun d =>
      (d.storage.lru.byteSize, d.storage.lru.ring.length)) = some (0, 0) := by decide +kernel
  obtain ⟨hi, rfl⟩ := hf
  rw [hi] at hz
  simp only [Except.toOption, Option.map_some, Option.some.injEq, Prod.mk.injEq] at hz
  intro m hm
  have hall : ∀ m ∈ fourTimes b!"/", (∀ x ∈ headersSet m.headers, x.1 = b!":path" → x.2 = b!"/") ∧
      0 + hdrBytes (headersSet m.headers) ≤ 4096 ∧ ((0 : Nat) : Int) + (headersSet m.headers).length ≤ 190 := by decide +kernel
  obtain ⟨a1, a2, a3⟩ := hall m hm
  refine ⟨fun v hv => a1 _ (sends_iff.1 hv) rfl, headersSet m.headers, fun x hx => sends_iff.1 hx, ?_, ?_⟩
  · rw [hz.1]; exact a2
  · rw [hz.2]; exact a3

end Verif.Props
