import Verif.Delta2.SessionLemmas
import Verif.Props.Lib
import Verif.Props.Wire
/-
Property theorems for delta2's sessions (C28, C29).
-/
namespace Verif.Props
open Verif Verif.Huff Verif.Delta2 Verif.Lib Verif.Lib.Spec

/-- A Processor that can be made: some parameters, whatever `int` makes of strings, and a Huffman coder. -/
structure Processor (u : Setup) : Prop where
  params : ∃ (pyInt : Str → Py Int) (params : List Str), Config.ofParams pyInt params = .ok u.cfg
  coder : IsCoder u.huffman

/-- The two codecs of a new Processor. -/
def Fresh (u : Setup) (c : Compressor) (d : Codec) : Prop :=
  Codec.init u.cfg = .ok d ∧ c = { codec := d }

theorem fresh_ok {u : Setup} {c : Compressor} {d : Codec} (h : Fresh u c d) :
    c.codec = d ∧ CodecOk u.cfg c.codec ∧ HostsOk c := by
  obtain ⟨h1, rfl⟩ := h
  obtain ⟨s, h2, h3, _⟩ := init_ok (cfg := u.cfg)
  rw [h1] at h2
  cases h2
  exact ⟨rfl, h3, rfl, rfl, Nat.zero_lt_succ _, by simp⟩

theorem processor_ok {u : Setup} (h : Processor u) : ConfigOk u.cfg := by
  obtain ⟨pyInt, ps, h⟩ := h.params
  exact ofParams_ok h

/-- C28.  Making a Processor's codecs never fails. -/
theorem C28_fresh (u : Setup) : ∃ c d, Fresh u c d := by
  obtain ⟨s, h, _⟩ := init_ok (cfg := u.cfg)
  exact ⟨_, s, h, rfl⟩

/-- C28.  `compress` never raises: for all parameters, any sequence of messages made of bytes and any order of sets and
dictionaries. -/
theorem C28_total (u : Setup) (hu : Processor u) (c : Compressor) (d : Codec) (hf : Fresh u c d) (ms : List Delta2.Message)
    (hm : ∀ m ∈ ms, MessageOk m) : ∃ c' blobs, compressAll u ms c = .ok (c', blobs) ∧ blobs.length = ms.length := by
  obtain ⟨_, h1, h2⟩ := fresh_ok hf
  obtain ⟨c', blobs, e, hl, _⟩ := session_spec (processor_ok hu) hu.coder ms hm c h1 h2
  exact ⟨c', blobs, e, hl⟩

/-- C28.  While the frames are long enough for the messages, the storage and the header groups of the decompressor
are those of the compressor after every message. -/
theorem C28_in_step (u : Setup) (hu : Processor u) (c : Compressor) (d : Codec) (hf : Fresh u c d) (ms : List Delta2.Message)
    (hm : ∀ m ∈ ms, MessageOk m) (c' : Compressor) (blobs : List Str) (hc : compressAll u ms c = .ok (c', blobs))
    (hfit : ∀ b ∈ blobs, b.length ≤ 65536) (d' : Codec) (outs : List (Dict Str Str))
    (hd : decompressAll u ((ms.map (·.orders)).zip blobs) d = .ok (d', outs)) : d' = c'.codec := by
  obtain ⟨h0, h1, h2⟩ := fresh_ok hf
  obtain ⟨c1, blobs1, e, hl, hs⟩ := session_spec (processor_ok hu) hu.coder ms hm c h1 h2
  rw [hc] at e
  cases e
  obtain ⟨outs1, e1, _⟩ := hs hfit
  rw [h0, hd] at e1
  cases e1
  rfl

/-- C28.  Decompressing does not raise. -/
theorem C28_decodes (u : Setup) (hu : Processor u) (c : Compressor) (d : Codec) (hf : Fresh u c d) (ms : List Delta2.Message)
    (hm : ∀ m ∈ ms, MessageOk m) (c' : Compressor) (blobs : List Str) (hc : compressAll u ms c = .ok (c', blobs))
    (hfit : ∀ b ∈ blobs, b.length ≤ 65536) :
    ∃ d' outs, decompressAll u ((ms.map (·.orders)).zip blobs) d = .ok (d', outs) := by
  obtain ⟨h0, h1, h2⟩ := fresh_ok hf
  obtain ⟨c1, blobs1, e, hl, hs⟩ := session_spec (processor_ok hu) hu.coder ms hm c h1 h2
  rw [hc] at e
  cases e
  obtain ⟨outs1, e1, _⟩ := hs hfit
  rw [h0] at e1
  exact ⟨_, _, e1⟩

theorem shows_iff {d : Dict Str Str} {name x : Str} : Shows d name x ↔
    name ≠ b!":version" ∧ name ≠ b!":status-text" ∧ name ≠ b!"connection" ∧ (name, x) ∈ d.flatMap splitHeader := by
  unfold Shows
  refine and_congr Iff.rfl (and_congr Iff.rfl (and_congr Iff.rfl ?_))
  rw [List.mem_flatMap]
  constructor
  · rintro ⟨v, p, hv, hp, hx⟩
    exact ⟨(name, v), hv, mem_splitHeader.2 ⟨p, mem_splitOn.2 hp, isTrim_iff.1 hx⟩⟩
  · rintro ⟨⟨k, v⟩, hv, hx⟩
    have := splitHeader_fst hx
    simp only at this
    subst this
    obtain ⟨p, hp, hx⟩ := mem_splitHeader.1 hx
    exact ⟨v, p, hv, mem_splitOn.1 hp, isTrim_iff.2 hx⟩

/-- C29.  For all parameters, any session made of bytes whose messages fit their frames, any hosts and any order of sets and
dictionaries: the tester reports no difference between what was sent and what was decoded exactly if no cookie that was
sent contains a NUL. -/
theorem C29_session (u : Setup) (hu : Processor u) (c : Compressor) (d : Codec) (hf : Fresh u c d) (ms : List Delta2.Message)
    (hm : ∀ m ∈ ms, MessageOk m) (c' : Compressor) (blobs : List Str) (hc : compressAll u ms c = .ok (c', blobs))
    (hfit : ∀ b ∈ blobs, b.length ≤ 65536) :
    ∃ d' outs, decompressAll u ((ms.map (·.orders)).zip blobs) d = .ok (d', outs) ∧
      List.Forall₂ (fun m out => ∀ (ord : List Hdr → List Hdr), (∀ l, (ord l).Perm l) → ∀ n1 n2,
        (compareHeaders ord m.headers n1 out n2 = [] ↔ ∀ v, (b!"cookie", v) ∈ m.headers → 0 ∉ v)) ms outs := by
  obtain ⟨h0, h1, h2⟩ := fresh_ok hf
  obtain ⟨c1, blobs1, e, hl, hs⟩ := session_spec (processor_ok hu) hu.coder ms hm c h1 h2
  rw [hc] at e
  cases e
  obtain ⟨outs, e1, hall⟩ := hs hfit
  rw [h0] at e1
  refine ⟨_, outs, e1, hall.imp fun m out hdec ord hord n1 n2 => ?_⟩
  rw [C46_compare_headers_iff ord hord]
  constructor
  · intro heq v hv h0
    obtain ⟨p, hp, h0p⟩ := nul_piece h0
    have hs : Shows m.headers b!"cookie" (stripSpace p) :=
      shows_iff.2 ⟨by decide, by decide, by decide, List.mem_flatMap.2 ⟨_, hv, mem_splitHeader.2 ⟨p, hp, rfl⟩⟩⟩
    obtain ⟨_, _, _, w, q, hw, hq, ht⟩ := (heq _ _).1 hs
    refine hdec.noNul w hw ?_
    obtain ⟨_, a, b, rfl, _⟩ := hq
    obtain ⟨⟨i, j, rfl⟩, _⟩ := ht
    simp [h0p]
  · intro hck name x
    rw [shows_iff, shows_iff, hdec.pieces hck]

/-! ### A session -/

/-- The orders in which the model lists things. -/
def plainOrders : Orders := ⟨id, id, id, id, id, id⟩

/-- The other way round. -/
def reverseOrders : Orders := ⟨List.reverse, List.reverse, List.reverse, List.reverse, List.reverse, List.reverse⟩

theorem plainOrders_ok : plainOrders.Ok :=
  ⟨fun _ => .refl _, fun _ => .refl _, fun _ => .refl _, fun _ => .refl _, fun _ => .refl _, fun _ => .refl _⟩

theorem reverseOrders_ok : reverseOrders.Ok :=
  ⟨List.reverse_perm, List.reverse_perm, List.reverse_perm, List.reverse_perm, List.reverse_perm, List.reverse_perm⟩

/-- Three messages to two hosts: new headers, the same again, a changed one, and a cookie
with a NUL, as two Cookie lines of a request give it. -/
def aSession : List Delta2.Message :=
  [⟨[(b!":path", b!"/a"), (b!"cookie", b!"x=1; y=2"), (b!"accept", b!"*/*")], b!"www.a.com", plainOrders⟩,
   ⟨[(b!":path", b!"/a"), (b!"cookie", b!"x=1; y=2"), (b!"accept", b!"*/*")], b!"www.b.org", plainOrders⟩,
   ⟨[(b!":path", b!"/b"), (b!"cookie", b!"x=1; z=3"), (b!"x", [49, 0, 50])], b!"www.a.com", reverseOrders⟩,
   ⟨[(b!"cookie", [97, 0, 98])], b!"www.a.com", plainOrders⟩]

theorem aSession_ok : ∀ m ∈ aSession, MessageOk m := by
  intro m hm
  simp only [aSession, List.mem_cons, List.not_mem_nil, or_false] at hm
  rcases hm with rfl | rfl | rfl | rfl
  · exact ⟨plainOrders_ok, by decide +kernel⟩
  · exact ⟨plainOrders_ok, by decide +kernel⟩
  · exact ⟨reverseOrders_ok, by decide +kernel⟩
  · exact ⟨plainOrders_ok, by decide +kernel⟩

/-- The lengths of the blobs and what is decoded in a session with the default parameters and a shipped table, if the
codecs end equal. -/
def runSession (ms : List Delta2.Message) : Py (List Nat × List (List Hdr)) := do
  let cfg ← Config.ofParams (fun _ => .error .value) []
  let h ← huffman exact cpyOrder requestTable
  let u : Setup := ⟨cfg, h, id⟩
  let d ← Codec.init cfg
  let (c, blobs) ← compressAll u ms { codec := d }
  let (d, outs) ← decompressAll u ((ms.map (·.orders)).zip blobs) d
  if d = c.codec then pure (blobs.map (·.length), outs) else .error .assertion

/-- The messages of the session fit their frames; the codecs end equal, and the headers arrive, in another order;
the last cookie arrives changed. -/
example : (runSession aSession).toOption = some ([27, 15, 29, 18],
    [[(b!"cookie", b!"x=1; y=2"), (b!"accept", b!"*/*"), (b!":path", b!"/a")],
     [(b!":path", b!"/a"), (b!"cookie", b!"x=1; y=2"), (b!"accept", b!"*/*")],
     [(b!"x", [50, 0, 49]), (b!":path", b!"/b"), (b!"cookie", b!"z=3; x=1")],
     [(b!"cookie", b!"a; b")]]) := by decide +kernel

/-- The hypotheses of the theorems hold of this Processor. -/
example : ∃ u, Processor u ∧ (∃ c d, Fresh u c d) ∧ ∀ m ∈ aSession, MessageOk m := by
  obtain ⟨h, _, hc⟩ := coder_shipped requestTable (.inl rfl)
  refine ⟨⟨⟨4096, 190, 255, .varint, false, false, false, false, true⟩, h, id⟩, ⟨⟨fun _ => .error .value, [], rfl⟩, hc⟩,
    C28_fresh _, aSession_ok⟩

end Verif.Props
