import Verif.Delta2.Implicit
import Verif.Props.Delta2OwnGroup
/-
Property theorems about the header group of a host with `implicit_hg_add`, in delta2 (C144).
-/
namespace Verif.Props
open Verif Verif.Huff Verif.Delta2 Verif.Lib Verif.Lib.Spec

/-! ### C144 -/

/-- C144, with `only_etoggles` and `hg_adjust` off, as by default, with `implicit_hg_add` or not, and whatever was sent before: all
that the group of a host has after a message are headers of that message. -/
theorem C144_own (u : Setup) (hu : Processor u) (he : u.cfg.onlyEtoggles = false) (hadj : u.cfg.hgAdjust = false)
    (c0 : Compressor) (d : Codec) (hf : Fresh u c0 d) (before : List Delta2.Message) (hb : ∀ m ∈ before, MessageOk m)
    (c : Compressor) (blobs : List Str) (hc : compressAll u before c0 = .ok (c, blobs)) (m : Delta2.Message) (hm : MessageOk m)
    (c' : Compressor) (blob : Str) (hx : compress u m.orders c m.headers m.host = .ok (c', blob)) (i : Int)
    (hi : i ∈ c'.codec.group (groupOf u c m.host).2) :
    ∃ x, GroupAt c'.codec (groupOf u c m.host).2 i x ∧ Sends m.headers x := by
  obtain ⟨h1, h2, _⟩ := reach_ok hu hf before hb hc
  obtain ⟨h1', _⟩ := compress_step hu h1 h2 hm hx
  obtain ⟨gs, hgs⟩ := compress_ops h2 hx
  obtain ⟨q, _⟩ := message_means (processor_ok hu) he hadj hm.orders h1 m.headers hm.bytes _ hgs
  exact ⟨_, (groupAt_iff h1' _ _ _).2 ⟨hi, rfl⟩, sends_iff.2 (q i hi)⟩

/-- C144, with `implicit_hg_add` on, `only_etoggles` and `hg_adjust` off, and whatever was sent before: if there is room for the headers
of the message that are in neither table, then after it the group of its host has exactly the headers of the message, but for a `:path`
that was in neither table.

Missing: the same without room, see `C144_lost_false`. -/
theorem C144_room_partial (u : Setup) (hu : Processor u) (he : u.cfg.onlyEtoggles = false) (hadj : u.cfg.hgAdjust = false)
    (himp : u.cfg.implicitAdd = true) (hz : u.cfg.maxBytes ≠ 0) (c0 : Compressor) (d : Codec) (hf : Fresh u c0 d)
    (before : List Delta2.Message) (hb : ∀ m ∈ before, MessageOk m) (c : Compressor) (blobs : List Str)
    (hc : compressAll u before c0 = .ok (c, blobs)) (m : Delta2.Message) (hm : MessageOk m) (c' : Compressor) (blob : Str)
    (hx : compress u m.orders c m.headers m.host = .ok (c', blob)) (new : List Hdr)
    (hnew : ∀ x, Sends m.headers x → ¬ TableHas c.codec.storage x → x.1 ≠ b!":path" → x ∈ new)
    (hbytes : c.codec.storage.lru.byteSize + hdrBytes new ≤ u.cfg.maxBytes)
    (hitems : (c.codec.storage.lru.ring.length : Int) + new.length ≤ u.cfg.maxEntries) (x : Hdr) :
    (∃ i, GroupAt c'.codec (groupOf u c m.host).2 i x) ↔
      Sends m.headers x ∧ (TableHas c.codec.storage x ∨ x.1 ≠ b!":path") := by
  obtain ⟨h1, h2, _⟩ := reach_ok hu hf before hb hc
  obtain ⟨h1', _⟩ := compress_step hu h1 h2 hm hx
  obtain ⟨gs, hgs⟩ := compress_ops h2 hx
  obtain ⟨q1, q2⟩ := message_means (processor_ok hu) he hadj hm.orders h1 m.headers hm.bytes _ hgs
  have hin := (C137_room u hu hadj hz c0 d hf before hb c blobs hc m hm c' blob hx new hnew hbytes hitems)
  constructor
  · rintro ⟨i, hi⟩
    obtain ⟨a, b⟩ := (groupAt_iff h1' _ _ _).1 hi
    have hs : Sends m.headers x := sends_iff.2 (b ▸ q1 i a)
    refine ⟨hs, ?_⟩
    by_contra hno
    push_neg at hno
    obtain ⟨n1, n2⟩ := hno
    -- an index of the table after the message is one of before it or of a header that it stored
    obtain ⟨_, e, hle, hex⟩ := hi
    obtain ⟨hm1, _⟩ := lookup_mem h1'.storage hle
    obtain ⟨gone, kept, added, wanted, t1, t2, t3, t4, t5, t6, t7⟩ :=
      C137_table u hu hadj hz c0 d hf before hb c blobs hc m hm c' blob hx
    rw [t3, t2, List.mem_append, List.mem_append] at hm1
    rcases hm1 with hm1 | hm1 | hm1
    · exact n1 (tableHas_iff.2 ⟨e, by simp [hm1], hex⟩)
    · exact n1 (tableHas_iff.2 ⟨e, by rw [t1]; simp [hm1], hex⟩)
    · have : x ∈ entryPairs added := List.mem_map.2 ⟨e, hm1, hex⟩
      exact ((t5 x).1 (t6.subset this)).2.2 n2
  · rintro ⟨hs, hor⟩
    obtain ⟨i, hi, hix⟩ := q2 himp new (fun y hy hn hp => hnew y (sends_iff.2 hy) (fun ht => hn (tableHas_iff.1 ht)) hp)
      ⟨hz, hbytes, hitems⟩ x (sends_iff.1 hs) (hor.imp tableHas_iff.1 id)
    exact ⟨i, (groupAt_iff h1' _ _ _).2 ⟨hi, hix⟩⟩

/-- Two hosts with a header each. -/
def oneEach : List Delta2.Message :=
  [⟨[(b!"x", b!"1")], b!"www.a.com", plainOrders⟩, ⟨[(b!"y", b!"2")], b!"www.b.com", plainOrders⟩]

/-- A table of `n` entries and `implicit_hg_add`. -/
def implicitCfg (n : Int) : Config := ⟨4096, n, 255, .varint, false, true, false, false, true⟩

/-- The headers of the table and the groups of the two hosts after both messages. -/
def implicitRun (n : Int) : Py (List Hdr × List (List Int)) := do
  let d ← Codec.init (implicitCfg n)
  let (s, _) ← makeOperations (implicitCfg n) plainOrders d [(b!"x", b!"1")] 1
  let (s, _) ← makeOperations (implicitCfg n) plainOrders s [(b!"y", b!"2")] 2
  pure (entryPairs s.storage.lru.ring, [s.group 1, s.group 2])

theorem implicitRun_one : (implicitRun 1).toOption = some ([(b!"y", b!"2")], [[], []]) := by decide +kernel

/-- With room the group has the new header. -/
example : (implicitRun 2).toOption = some ([(b!"x", b!"1"), (b!"y", b!"2")], [[65], [66]]) := by decide +kernel

theorem compress_next {u : Setup} {c : Compressor} {m : Delta2.Message} {c' : Compressor} {blob : Str}
    (hc : compress u m.orders c m.headers m.host = .ok (c', blob)) :
    (∃ gs, makeOperations u.cfg m.orders (groupOf u c m.host).1.codec m.headers (groupOf u c m.host).2 = .ok (c'.codec, gs)) ∧
      c' = { (groupOf u c m.host).1 with codec := c'.codec } := by
  simp only [compress, bind, Except.bind, pure, Except.pure] at hc
  split at hc
  · cases hc
  · rename_i q hq
    obtain ⟨s1, gs⟩ := q
    simp only at hc
    split at hc
    · cases hc
    · cases hc
      exact ⟨⟨gs, hq⟩, rfl⟩

/-- C144 is false without room: the table has one entry, a second host stores a header, and its group has nothing, although the header is
in the table. -/
theorem C144_lost_false : ∃ (u : Setup) (c0 : Compressor) (d : Codec) (ms : List Delta2.Message) (c : Compressor) (blobs : List Str),
    Processor u ∧ u.cfg.onlyEtoggles = false ∧ u.cfg.hgAdjust = false ∧ u.cfg.implicitAdd = true ∧ u.cfg.maxBytes = 4096 ∧
    Fresh u c0 d ∧ (∀ m ∈ ms, MessageOk m) ∧ compressAll u ms c0 = .ok (c, blobs) ∧
    ∃ m, ms.getLast? = some m ∧ Sends m.headers (b!"y", b!"2") ∧ TableHas c.codec.storage (b!"y", b!"2") ∧
      c.codec.group (groupOf u c m.host).2 = [] := by
  obtain ⟨h, hh, hc⟩ := coder_shipped requestTable (.inl rfl)
  obtain ⟨c0, d, hf⟩ := C28_fresh ⟨implicitCfg 1, h, id⟩
  have hms : ∀ m ∈ oneEach, MessageOk m := by
    intro m hm
    simp only [oneEach, List.mem_cons, List.not_mem_nil, or_false] at hm
    rcases hm with rfl | rfl
    · exact ⟨plainOrders_ok, by decide +kernel⟩
    · exact ⟨plainOrders_ok, by decide +kernel⟩
  have hu : Processor ⟨implicitCfg 1, h, id⟩ :=
    ⟨⟨fun _ => .ok 1, [b!"max_entries=1", b!"implicit_hg_add=1"], rfl⟩, hc⟩
  obtain ⟨c, blobs, hok, _⟩ := C28_total _ hu c0 d hf oneEach hms
  have hrun := implicitRun_one
  obtain ⟨hd, rfl⟩ := hf
  have hd : Codec.init (implicitCfg 1) = .ok d := hd
  have hok' := hok
  simp only [oneEach, compressAll, bind, Except.bind, pure, Except.pure] at hok'
  split at hok'
  · cases hok'
  rename_i q1 hq1
  obtain ⟨c1, b1⟩ := q1
  simp only at hok'
  split at hok'
  · cases hok'
  rename_i q2 hq2
  split at hq2
  · cases hq2
  rename_i q3 hq3
  obtain ⟨c2, b2⟩ := q3
  cases hq2
  cases hok'
  obtain ⟨⟨g1, e1⟩, f1⟩ := compress_next (m := ⟨[(b!"x", b!"1")], b!"www.a.com", plainOrders⟩) hq1
  obtain ⟨⟨g2, e2⟩, f2⟩ := compress_next (m := ⟨[(b!"y", b!"2")], b!"www.b.com", plainOrders⟩) hq3
  have e1 : makeOperations (implicitCfg 1) plainOrders d [(b!"x", b!"1")] 1 = .ok (c1.codec, g1) := e1
  generalize c1.codec = s1 at *
  subst f1
  have e2 : makeOperations (implicitCfg 1) plainOrders s1 [(b!"y", b!"2")] 2 = .ok (c2.codec, g2) := e2
  generalize c2.codec = s2 at *
  subst f2
  simp only [implicitRun, bind, Except.bind, hd, e1, e2, pure, Except.pure, Except.toOption, Option.some.injEq, Prod.mk.injEq,
    List.cons.injEq, and_true] at hrun
  obtain ⟨r1, r3, r4⟩ := hrun
  refine ⟨_, _, d, oneEach, _, _, hu, rfl, rfl, rfl, rfl, ⟨hd, rfl⟩, hms, hok, _, rfl, sends_iff.2 (by decide +kernel), ?_, r4⟩
  have : (b!"y", b!"2") ∈ entryPairs s2.storage.lru.ring := by rw [r1]; simp
  obtain ⟨e, he, hex⟩ := List.mem_map.1 this
  exact tableHas_iff.2 ⟨e, List.mem_append_right _ he, hex⟩

/-- The hypotheses of C144_own and C144_room_partial hold of the second of these messages when the table is not full. -/
example : ∃ (u : Setup) (c0 : Compressor) (d : Codec) (c c' : Compressor) (blobs : List Str) (blob : Str) (m0 m : Delta2.Message),
    Processor u ∧ u.cfg.onlyEtoggles = false ∧ u.cfg.hgAdjust = false ∧ u.cfg.implicitAdd = true ∧ u.cfg.maxBytes ≠ 0 ∧ Fresh u c0 d ∧
    MessageOk m0 ∧ MessageOk m ∧ compressAll u [m0] c0 = .ok (c, blobs) ∧ compress u m.orders c m.headers m.host = .ok (c', blob) := by
  obtain ⟨h, hh, hc⟩ := coder_shipped requestTable (.inl rfl)
  obtain ⟨c0, d, hf⟩ := C28_fresh ⟨implicitCfg 2, h, id⟩
  have hu : Processor ⟨implicitCfg 2, h, id⟩ :=
    ⟨⟨fun _ => .ok 2, [b!"max_entries=2", b!"implicit_hg_add=1"], rfl⟩, hc⟩
  have h0 : MessageOk ⟨[(b!"x", b!"1")], b!"www.a.com", plainOrders⟩ := ⟨plainOrders_ok, by decide +kernel⟩
  have h1 : MessageOk ⟨[(b!"y", b!"2")], b!"www.b.com", plainOrders⟩ := ⟨plainOrders_ok, by decide +kernel⟩
  obtain ⟨c, blobs, hok, _⟩ := C28_total _ hu c0 d hf [_] (by simpa using h0)
  obtain ⟨k1, k2, _⟩ := reach_ok hu hf [_] (by simpa using h0) hok
  obtain ⟨c', blob, hx, _⟩ := compress_spec (processor_ok hu) hu.coder k1 k2 h1
  exact ⟨_, c0, d, c, c', blobs, blob, _, _, hu, rfl, rfl, rfl, (by decide : (4096 : Int) ≠ 0), hf, h0, h1, hok, hx⟩

end Verif.Props
