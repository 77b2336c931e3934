import Verif.Delta2.RepeatPath
import Verif.Props.Session
/-
Property theorems about messages that delta2 has sent before (C136).
-/
namespace Verif.Props
open Verif Verif.Huff Verif.Delta2 Verif.Lib Verif.Lib.Spec

/-! ### C136 -/

/-- The header `x`, cut at the semicolons of cookies and at the NULs of other values and without the spaces around it, is in the
message. -/
def Sends (headers : Dict Str Str) (x : Hdr) : Prop :=
  ∃ v p, (x.1, v) ∈ headers ∧ IsPiece (sepOf x.1) v p ∧ IsTrim p x.2

/-- The pair is in the static or in the dynamic table. -/
def TableHas (st : Storage) (x : Hdr) : Prop :=
  (∃ e ∈ st.static.ring, e.kv.key = x.1 ∧ e.kv.val = x.2) ∨ ∃ e ∈ st.lru.ring, e.kv.key = x.1 ∧ e.kv.val = x.2

/-- The entries of a header group are the headers of the message, each once. -/
def GroupIs (s : Codec) (gid : Nat) (headers : Dict Str Str) : Prop :=
  ∃ pairs : List Hdr, List.Forall₂ (fun i x => ∃ e, lookupFromIdx s.storage i = .ok e ∧ (e.kv.key, e.kv.val) = x) (s.group gid) pairs ∧
    pairs.Nodup ∧ ∀ x, x ∈ pairs ↔ Sends headers x

theorem sends_iff {headers : Dict Str Str} {x : Hdr} : Sends headers x ↔ x ∈ headersSet headers := by
  rw [mem_headersSet, List.mem_flatMap]
  obtain ⟨name, x⟩ := x
  constructor
  · rintro ⟨v, p, hv, hp, hx⟩
    exact ⟨(name, v), hv, mem_splitHeader.2 ⟨p, mem_splitOn.2 hp, isTrim_iff.1 hx⟩⟩
  · rintro ⟨⟨k, v⟩, hv, hx⟩
    have := splitHeader_fst hx
    simp only at this
    subst this
    obtain ⟨p, hp, hx⟩ := mem_splitHeader.1 hx
    exact ⟨v, p, hv, mem_splitOn.1 hp, isTrim_iff.2 hx⟩

theorem tableHas_iff {st : Storage} {x : Hdr} : TableHas st x ↔ InTable st x := by
  unfold TableHas InTable
  constructor
  · rintro (⟨e, he, h⟩ | ⟨e, he, h⟩)
    · exact ⟨e, by simp [he], by rw [h.1, h.2]⟩
    · exact ⟨e, by simp [he], by rw [h.1, h.2]⟩
  · rintro ⟨e, he, rfl⟩
    rcases List.mem_append.1 he with he | he
    · exact .inl ⟨e, he, rfl, rfl⟩
    · exact .inr ⟨e, he, rfl, rfl⟩

theorem groupIs_iff {cfg : Config} {s : Codec} (h : CodecOk cfg s) (gid : Nat) (headers : Dict Str Str) :
    GroupIs s gid headers ↔ ((s.group gid).map (kvAt s.storage)).Perm (headersSet headers) := by
  obtain ⟨_, hl⟩ := h.group gid
  have key : List.Forall₂ (fun i x => ∃ e, lookupFromIdx s.storage i = .ok e ∧ (e.kv.key, e.kv.val) = x) (s.group gid)
      ((s.group gid).map (kvAt s.storage)) := by
    rw [List.forall₂_map_right_iff, List.forall₂_same]
    intro i hi
    obtain ⟨e, he⟩ := lookup_live h.storage (hl i hi)
    exact ⟨e, he, (kvAt_ok he).symm⟩
  constructor
  · rintro ⟨pairs, hp, hn, hx⟩
    have : pairs = (s.group gid).map (kvAt s.storage) := by
      have hp' : List.Forall₂ (fun i x => kvAt s.storage i = x) (s.group gid) pairs := hp.imp fun i x ⟨e, he, h⟩ => by
        rw [kvAt_ok he, h]
      generalize s.group gid = l at hp'
      clear hp hn hx key
      induction hp' with
      | nil => rfl
      | cons h _ ih => simp [h, ih]
    subst this
    exact (List.perm_ext_iff_of_nodup hn (nodup_headersSet _)).2 fun x => (hx x).trans sends_iff
  · intro hp
    exact ⟨_, key, hp.nodup_iff.2 (nodup_headersSet _), fun x => hp.mem_iff.trans sends_iff.symm⟩

/-- The states that a compressor can get into. -/
theorem reach_ok {u : Setup} (hu : Processor u) {c0 : Compressor} {d : Codec} (hf : Fresh u c0 d) (before : List Delta2.Message)
    (hb : ∀ m ∈ before, MessageOk m) {c : Compressor} {blobs : List Str} (hc : compressAll u before c0 = .ok (c, blobs)) :
    CodecOk u.cfg c.codec ∧ HostsOk c ∧ PathOk c.codec.storage := by
  obtain ⟨h0, h1, h2⟩ := fresh_ok hf
  have h3 : PathOk c0.codec.storage := by
    obtain ⟨hi, rfl⟩ := hf
    simp only [Codec.init, bind, Except.bind] at hi
    split at hi
    · cases hi
    · rename_i st hst
      cases hi
      obtain ⟨st', e, _, hr⟩ := storage_init u.cfg.maxBytes u.cfg.maxEntries u.cfg.maxIndex
      rw [hst] at e
      cases e
      intro e he
      simp only [hr] at he
      cases he
  clear hf h0
  induction before generalizing c0 blobs with
  | nil => cases hc; exact ⟨h1, h2, h3⟩
  | cons m ms ih =>
    obtain ⟨c1, blob, e1, k1, k2, _⟩ := compress_spec (processor_ok hu) hu.coder h1 h2 (hb m (by simp))
    simp only [compressAll, bind, Except.bind, e1] at hc
    split at hc
    · cases hc
    · rename_i r hr
      cases hc
      refine ih (fun m hm => hb m (by simp [hm])) hr k1 k2 ?_
      have hg := (groupOf_spec u h2 m.host).2.1
      simp only [compress, bind, Except.bind, hg] at e1
      split at e1
      · cases e1
      · rename_i q hq
        obtain ⟨s1, gs⟩ := q
        simp only at e1
        split at e1
        · cases e1
        · cases e1
          exact message_path (processor_ok hu) (hb m (by simp)).orders h1 h3 _ (hb m (by simp)).bytes _ hq

/-- One message: its frame is empty exactly if the group already is the message. -/
theorem compress_nil {u : Setup} (hu : Processor u) {c : Compressor} (h : CodecOk u.cfg c.codec) (hk : HostsOk c)
    {m : Delta2.Message} (hm : MessageOk m) {c' : Compressor} {blob : Str} (hc : compress u m.orders c m.headers m.host = .ok (c', blob)) :
    (GroupIs c.codec (groupOf u c m.host).2 m.headers ∧ blob = [0, 0, 8, 1, 128, 0, 255, 255, (groupOf u c m.host).2]) ∨
      (¬ GroupIs c.codec (groupOf u c m.host).2 m.headers ∧ 10 < blob.length) := by
  obtain ⟨k1, k2, k3⟩ := groupOf_spec u hk m.host
  generalize hg : groupOf u c m.host = r at k1 k2 k3 ⊢
  have hcfg := processor_ok hu
  obtain ⟨codes, hcodes⟩ := hu.coder.codes
  have hm' := h.findOrMake r.2
  have hst := findOrMake_storage c.codec r.2
  have hgr := findOrMake_group c.codec r.2
  obtain ⟨gs0, e1, hgood, hrun, _⟩ := makeInstructions_spec hcfg.high hm.orders hm' m.headers (headersSet_bytes hm.bytes) r.2
  have hnil := makeInstructions_nil hm.orders hm' m.headers r.2 e1
  rw [hst] at hgood hnil
  rw [hgr, ← groupIs_iff h] at hnil
  obtain ⟨gs', e2, hg2, hback⟩ := hgToLru_spec hcfg h.storage gs0 hgood
  have hnil' := (lruToHg_nil hback).trans hnil
  simp only [compress, hg, k2, makeOperations, bind, Except.bind, e1, hst, e2, pure, Except.pure] at hc
  split at hc
  · cases hc
  · rename_i q hq
    split at hq
    · cases hq
    · cases hq
      simp only at hc
      split at hc
      · cases hc
      · rename_i b hb
        cases hc
        by_cases hG : GroupIs c.codec r.2 m.headers
        · refine .inl ⟨hG, ?_⟩
          rw [wire_nil (hnil'.2 hG) k3] at hb
          cases hb
          rfl
        · exact .inr ⟨hG, wire_more hcodes hg2 (fun h => hG (hnil'.1 h)) k3 hb⟩

/-- C136, whatever was sent before and with any parameters: a message costs 9 bytes, a frame without operations, exactly if the
header group of its host has the headers of the message, each once; otherwise it costs at least 11. -/
theorem C136_free (u : Setup) (hu : Processor u) (c0 : Compressor) (d : Codec) (hf : Fresh u c0 d) (before : List Delta2.Message)
    (hb : ∀ m ∈ before, MessageOk m) (c : Compressor) (blobs : List Str) (hc : compressAll u before c0 = .ok (c, blobs))
    (m : Delta2.Message) (hm : MessageOk m) (c' : Compressor) (blob : Str)
    (hx : compress u m.orders c m.headers m.host = .ok (c', blob)) :
    (GroupIs c.codec (groupOf u c m.host).2 m.headers ∧ blob = [0, 0, 8, 1, 128, 0, 255, 255, (groupOf u c m.host).2]) ∨
      (¬ GroupIs c.codec (groupOf u c m.host).2 m.headers ∧ 11 ≤ blob.length) := by
  obtain ⟨h1, h2, _⟩ := reach_ok hu hf before hb hc
  exact compress_nil hu h1 h2 hm hx

theorem groupOf_again {u : Setup} {c : Compressor} (host : Str) (s : Codec) :
    groupOf u { (groupOf u c host).1 with codec := s } host = ({ (groupOf u c host).1 with codec := s }, (groupOf u c host).2) := by
  have hg : (groupOf u c host).1.hosts.get? (u.norm host) = some (groupOf u c host).2 := by
    unfold Delta2.groupOf
    split
    · rename_i gid hg
      exact hg
    · simp only [Dict.get?_set, if_true]
  generalize groupOf u c host = r at hg ⊢
  unfold Delta2.groupOf
  simp only [hg]

/-- A message of known headers. -/
theorem compress_known {u : Setup} (hu : Processor u) (he : u.cfg.onlyEtoggles = false) (hadj : u.cfg.hgAdjust = false)
    {c : Compressor} (h : CodecOk u.cfg c.codec) (hk : HostsOk c) {m : Delta2.Message} (hm : MessageOk m)
    (hall : ∀ x, Sends m.headers x → TableHas c.codec.storage x) {c' : Compressor} {blob : Str}
    (hc : compress u m.orders c m.headers m.host = .ok (c', blob)) :
    c'.codec.storage = c.codec.storage ∧ GroupIs c'.codec (groupOf u c m.host).2 m.headers ∧
      groupOf u c' m.host = (c', (groupOf u c m.host).2) := by
  obtain ⟨c1, blob1, e0, h', _⟩ := compress_spec (processor_ok hu) hu.coder h hk hm
  rw [hc] at e0
  cases e0
  obtain ⟨k1, k2, k3⟩ := groupOf_spec u hk m.host
  have hag := groupOf_again (u := u) (c := c) m.host
  generalize hg : groupOf u c m.host = r at k1 k2 k3 hag ⊢
  simp only [compress, hg, k2, bind, Except.bind, pure, Except.pure] at hc
  split at hc
  · cases hc
  · rename_i q hq
    obtain ⟨s1, gs⟩ := q
    simp only at hc
    split at hc
    · cases hc
    · cases hc
      obtain ⟨a1, a2, _⟩ := message_known (processor_ok hu) he hadj hm.orders h m.headers hm.bytes
        (fun x hx => tableHas_iff.1 (hall x (sends_iff.2 hx))) r.2 hq
      exact ⟨a1, (groupIs_iff h' _ _).2 a2, hag s1⟩

theorem known_again {u : Setup} (hu : Processor u) (he : u.cfg.onlyEtoggles = false) (hadj : u.cfg.hgAdjust = false)
    (headers : Dict Str Str) (host : Str) (gid : Nat) (rest : List Delta2.Message) : ∀ (c : Compressor), CodecOk u.cfg c.codec → HostsOk c →
    (∀ x, Sends headers x → TableHas c.codec.storage x) → GroupIs c.codec gid headers → groupOf u c host = (c, gid) →
    (∀ m ∈ rest, MessageOk m ∧ m.host = host ∧ ∀ x, Sends m.headers x ↔ Sends headers x) → ∀ c' blobs,
    compressAll u rest c = .ok (c', blobs) →
    c'.codec.storage = c.codec.storage ∧ ∀ b ∈ blobs, b = [0, 0, 8, 1, 128, 0, 255, 255, gid] := by
  induction rest with
  | nil => intro c _ _ _ _ _ _ c' blobs hx; cases hx; exact ⟨rfl, by simp⟩
  | cons m ms ih =>
    intro c h hk hall hG hgr hms c' blobs hx
    obtain ⟨m1, rfl, m3⟩ := hms m (by simp)
    obtain ⟨c1, blob1, e1, h1, hk1, _⟩ := compress_spec (processor_ok hu) hu.coder h hk m1
    simp only [compressAll, bind, Except.bind, e1] at hx
    split at hx
    · cases hx
    · rename_i r hr
      obtain ⟨c2, bs⟩ := r
      cases hx
      have hsame : ∀ (s : Codec) (a b : Dict Str Str), (∀ x, Sends a x ↔ Sends b x) → GroupIs s gid b → GroupIs s gid a := by
        rintro s a b hab ⟨ps, p1, p2, p3⟩
        exact ⟨ps, p1, p2, fun x => (p3 x).trans (hab x).symm⟩
      obtain ⟨a1, a2, a3⟩ := compress_known hu he hadj h hk m1 (fun x hx => hall x ((m3 x).1 hx)) e1
      rw [hgr] at a2 a3
      have hblob : blob1 = [0, 0, 8, 1, 128, 0, 255, 255, gid] := by
        rcases compress_nil hu h hk m1 e1 with ⟨_, hb⟩ | ⟨hno, _⟩
        · rw [hgr] at hb
          exact hb
        · rw [hgr] at hno
          exact absurd (hsame _ _ _ m3 hG) hno
      obtain ⟨b1, b2⟩ := ih c1 h1 hk1 (fun x hx => by rw [a1]; exact hall x hx)
        (hsame _ _ _ (fun x => (m3 x).symm) a2) a3 (fun m hm => hms m (by simp [hm])) _ _ hr
      refine ⟨b1.trans a1, fun b hb => ?_⟩
      rcases List.mem_cons.1 hb with rfl | hb
      · exact hblob
      · exact b2 b hb

/-- C136, with `hg_adjust` and `only_etoggles` off, as by default, and whatever was sent before: a message whose headers are all in
the tables changes nothing in the tables, and every repetition of it that follows is free, in any order of its headers. -/
theorem C136_repeat (u : Setup) (hu : Processor u) (he : u.cfg.onlyEtoggles = false) (hadj : u.cfg.hgAdjust = false)
    (c0 : Compressor) (d : Codec) (hf : Fresh u c0 d) (before : List Delta2.Message) (hb : ∀ m ∈ before, MessageOk m)
    (c : Compressor) (blobs : List Str) (hc : compressAll u before c0 = .ok (c, blobs)) (m : Delta2.Message) (hm : MessageOk m)
    (hall : ∀ x, Sends m.headers x → TableHas c.codec.storage x) (c1 : Compressor) (blob : Str)
    (hx : compress u m.orders c m.headers m.host = .ok (c1, blob)) (again : List Delta2.Message)
    (ha : ∀ m' ∈ again, MessageOk m' ∧ m'.host = m.host ∧ ∀ x, Sends m'.headers x ↔ Sends m.headers x)
    (c2 : Compressor) (blobs2 : List Str) (hx2 : compressAll u again c1 = .ok (c2, blobs2)) :
    c1.codec.storage = c.codec.storage ∧ c2.codec.storage = c.codec.storage ∧ ∀ b ∈ blobs2, b.length = 9 := by
  obtain ⟨h1, h2, _⟩ := reach_ok hu hf before hb hc
  obtain ⟨c1', blob1, e1, k1, hk1, _⟩ := compress_spec (processor_ok hu) hu.coder h1 h2 hm
  rw [hx] at e1
  cases e1
  obtain ⟨a1, a2, a3⟩ := compress_known hu he hadj h1 h2 hm hall hx
  obtain ⟨b1, b2⟩ := known_again hu he hadj m.headers m.host _ again c1 k1 hk1 (fun x hx => by rw [a1]; exact hall x hx) a2 a3 ha
    c2 blobs2 hx2
  exact ⟨a1, b1.trans a1, fun b hb => by rw [b2 b hb]; rfl⟩

/-- C136, with any parameters and whatever was sent before, the same message included: the tables never have a `:path` other than
"/", and a message with another one is never free. -/
theorem C136_path (u : Setup) (hu : Processor u) (c0 : Compressor) (d : Codec) (hf : Fresh u c0 d) (before : List Delta2.Message)
    (hb : ∀ m ∈ before, MessageOk m) (c : Compressor) (blobs : List Str) (hc : compressAll u before c0 = .ok (c, blobs)) :
    (∀ v, TableHas c.codec.storage (b!":path", v) → v = b!"/") ∧
    ∀ (m : Delta2.Message) (v : Str) (c' : Compressor) (blob : Str), MessageOk m → Sends m.headers (b!":path", v) → v ≠ b!"/" →
      compress u m.orders c m.headers m.host = .ok (c', blob) → 11 ≤ blob.length := by
  obtain ⟨h1, h2, h3⟩ := reach_ok hu hf before hb hc
  have hp : ∀ v, TableHas c.codec.storage (b!":path", v) → v = b!"/" := fun v hv =>
    table_path h1.storage h3 (tableHas_iff.1 hv) rfl
  refine ⟨hp, fun m v c' blob hm hs hv hx => ?_⟩
  rcases compress_nil hu h1 h2 hm hx with ⟨hG, _⟩ | ⟨_, hl⟩
  · rw [groupIs_iff h1] at hG
    obtain ⟨i, hi, hiv⟩ := List.mem_map.1 (hG.mem_iff.2 (sends_iff.1 hs))
    have := inTable_of_live h1.storage ((h1.group _).2 i hi)
    rw [hiv] at this
    exact absurd (hp v (tableHas_iff.2 this)) hv
  · exact hl

/-! ### A message four times -/

/-- A message for "/" with a cookie of two pieces and a new header, in two orders. -/
def fourTimes (path : Str) : List Delta2.Message :=
  [⟨[(b!":path", path), (b!"cookie", b!"x=1; y=2"), (b!"x", b!"1")], b!"www.a.com", plainOrders⟩,
   ⟨[(b!"x", b!"1"), (b!":path", path), (b!"cookie", b!"y=2; x=1")], b!"www.a.com", reverseOrders⟩,
   ⟨[(b!":path", path), (b!"cookie", b!"x=1; y=2"), (b!"x", b!"1")], b!"www.a.com", plainOrders⟩,
   ⟨[(b!"x", b!"1"), (b!":path", path), (b!"cookie", b!"y=2; x=1")], b!"www.a.com", reverseOrders⟩]

/-- First the new headers are stored, then they are turned on, and then it is free; with another path it never is. -/
example : (runSession (fourTimes b!"/")).toOption.map (·.1) = some [25, 12, 9, 9] ∧
    (runSession (fourTimes b!"/b")).toOption.map (·.1) = some [27, 16, 13, 13] := by decide +kernel

/-- The hypotheses of C136_repeat hold after the first of them. -/
example : ∃ u, Processor u ∧ u.cfg.onlyEtoggles = false ∧ u.cfg.hgAdjust = false ∧ ∃ c0 d, Fresh u c0 d ∧
    ∀ m ∈ fourTimes b!"/", MessageOk m := by
  obtain ⟨h, _, hc⟩ := coder_shipped requestTable (.inl rfl)
  obtain ⟨c0, d, hf⟩ := C28_fresh ⟨⟨4096, 190, 255, .varint, false, false, false, false, true⟩, h, id⟩
  refine ⟨_, ⟨⟨fun _ => .error .value, [], rfl⟩, hc⟩, rfl, rfl, c0, d, hf, ?_⟩
  intro m hm
  simp only [fourTimes, List.mem_cons, List.not_mem_nil, or_false] at hm
  rcases hm with rfl | rfl | rfl | rfl
  · exact ⟨plainOrders_ok, by decide +kernel⟩
  · exact ⟨reverseOrders_ok, by decide +kernel⟩
  · exact ⟨plainOrders_ok, by decide +kernel⟩
  · exact ⟨reverseOrders_ok, by decide +kernel⟩

/-- The tables have all headers of the message after it has been sent once, with the default parameters. -/
example : ((do
    let cfg ← Config.ofParams (fun _ => .error .value) []
    let d ← Codec.init cfg
    let (s, _) ← makeOperations cfg plainOrders d [(b!":path", b!"/"), (b!"cookie", b!"x=1; y=2"), (b!"x", b!"1")] 1
    pure ((headersSet [(b!":path", b!"/"), (b!"cookie", b!"x=1; y=2"), (b!"x", b!"1")]).all fun x =>
      (s.storage.static.ring ++ s.storage.lru.ring).any fun e => e.kv.key == x.1 && e.kv.val == x.2)) : Py Bool).toOption =
    some true := by decide +kernel

end Verif.Props
