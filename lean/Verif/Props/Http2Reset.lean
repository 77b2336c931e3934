import Verif.Http2.Reset
import Verif.Props.Http2
/-
http2: sides that are out of step, and how they get into step again (C135).
-/
namespace Verif.Props
open Verif Verif.Http2 Verif.Http2.Spec

/-- A decoder after any lists of bytes, whether they were accepted or not. -/
def decoderAfter (isRequest : Bool) (bufferSize : Int) (streams : List (List Nat)) : Tab :=
  streams.foldl (fun t s => (decodeHeaders t s).1) (initTab isRequest bufferSize)

theorem decoderAfter_inv (isRequest : Bool) (bufferSize : Int) (streams : List (List Nat)) (hb : ∀ s ∈ streams, ∀ b ∈ s, b < 256) :
    SizeOK (decoderAfter isRequest bufferSize streams) ∧ (decoderAfter isRequest bufferSize streams).max = bufferSize := by
  have conv : ∀ t : Tab, (t.entries.map fun e => e.header.1.length + e.header.2.length + 32).sum = hdrsSize (hdrs t.entries) := by
    intro t; simp only [hdrsSize, hdrs, List.map_map]; rfl
  obtain ⟨h1, h2, _⟩ := C03_http2_decoder_size (initTab isRequest bufferSize) streams hb (by rw [conv]; exact initTab_sizeOK _ _)
  refine ⟨by unfold SizeOK; rw [← conv]; exact h1, h2.trans (by rw [initTab_eq])⟩

/-- C135: a message of one header that is larger than the buffer, by an encoder with nothing referenced and no entry of that
name, is decoded correctly by a decoder in any state, whatever it was given before, and empties both tables: they are in step
again, and every further message that the encoder gets through decodes to the headers that were sent. -/
theorem C135_reset (isRequest : Bool) (bufferSize : Int) (te te1 te2 : Tab) (hreach : EncReach isRequest bufferSize te)
    (streams : List (List Nat)) (hb : ∀ s ∈ streams, ∀ b ∈ s, b < 256) (h : Hdr) (hp : h.1 ≠ b!":path")
    (hbig : bufferSize < (h.1.length + h.2.length + 32 : Nat)) (hno : ∀ e ∈ te.entries, e.referenced = false)
    (hname : ∀ e ∈ te.entries, e.header.1 ≠ h.1) (fuel : Nat) (f : List Nat) (he : encodeHeaders fuel te [h] = some (te1, .ok f))
    (msgs : List (List Hdr)) (frames : List (List Nat)) (hms : encodeAll fuel te1 msgs = some (.ok (te2, frames))) :
    te1.entries = [] ∧ decodeHeaders (decoderAfter isRequest bufferSize streams) f = (⟨[], 0, bufferSize⟩, .ok [h]) ∧
    ∃ td outs, decodeAll ⟨[], 0, bufferSize⟩ frames = .ok (td, outs) ∧
      List.Forall₂ (fun out msg => ∀ x : Hdr, x ∈ out ↔ x ∈ msg) outs msgs := by
  obtain ⟨i1, i2, i3, _⟩ := hreach.inv
  obtain ⟨d1, d2⟩ := decoderAfter_inv isRequest bufferSize streams hb
  have hbig' : bufferSize < hdrSize h := hbig
  have hout : h ∉ hdrs te.entries := fun hm => by
    obtain ⟨e, hee, hxe⟩ := mem_hdrs.1 hm
    exact hname e hee (by rw [hxe])
  obtain ⟨b1, _⟩ := encode_big i1 i2 hp (by rw [i3]; exact hbig') hout he
  obtain ⟨p1, p2⟩ := encode_plain i1 i2 hp (by rw [i3]; exact hbig') hno hname he
  obtain ⟨_, hf⟩ := frame_ok p1.symm
  have hdrop : f.drop 8 = literalBytes 0x40 te h := by rw [hf]; rfl
  have ht1 : te1 = ⟨[], 0, bufferSize⟩ := by rw [b1, i3]
  subst ht1
  refine ⟨rfl, ?_, ?_⟩
  · generalize htd : decoderAfter isRequest bufferSize streams = td at d1 d2
    have hs0 : SizeOK { td with entries := resetEmitted td.entries } := by
      unfold SizeOK hdrs at d1 ⊢; unfold resetEmitted; simpa [Function.comp_def] using d1
    have hst := (steps_any (td := { td with entries := resetEmitted td.entries }) p2).decode
    rw [append_big hs0 (by simp only [d2]; exact hbig')] at hst
    unfold decodeHeaders
    simp only [hdrop]
    rw [hst]
    simp [remainingHeaders, d2]
  · obtain ⟨outs, h1, h2, _⟩ := encodeAll_inv (t := ⟨[], 0, bufferSize⟩) msgs rfl (by simp) hms
    exact ⟨_, outs, h1, h2⟩

/-- C135: two such messages, one after the other, get any two sides into step, whatever has happened before, if the
predefined table fits into the buffer; the first may be lost. -/
theorem C135_recover (isRequest : Bool) (bufferSize : Int) (hfit : (hdrsSize (defaultHeaders isRequest) : Int) ≤ bufferSize)
    (te te1 te2 te3 : Tab) (hreach : EncReach isRequest bufferSize te)
    (streams : List (List Nat)) (hb : ∀ s ∈ streams, ∀ b ∈ s, b < 256) (h1 h2 : Hdr) (hp1 : h1.1 ≠ b!":path") (hp2 : h2.1 ≠ b!":path")
    (hbig1 : bufferSize < (h1.1.length + h1.2.length + 32 : Nat)) (hbig2 : bufferSize < (h2.1.length + h2.2.length + 32 : Nat))
    (fuel : Nat) (r1 : Py (List Nat)) (f2 : List Nat) (he1 : encodeHeaders fuel te [h1] = some (te1, r1))
    (he2 : encodeHeaders fuel te1 [h2] = some (te2, .ok f2))
    (msgs : List (List Hdr)) (frames : List (List Nat)) (hms : encodeAll fuel te2 msgs = some (.ok (te3, frames))) :
    decodeHeaders (decoderAfter isRequest bufferSize streams) f2 = (⟨[], 0, bufferSize⟩, .ok [h2]) ∧
    ∃ td outs, decodeAll ⟨[], 0, bufferSize⟩ frames = .ok (td, outs) ∧
      List.Forall₂ (fun out msg => ∀ x : Hdr, x ∈ out ↔ x ∈ msg) outs msgs := by
  obtain ⟨i1, i2, i3, _⟩ := hreach.inv
  have hle := (C03_http2_encoder_size isRequest bufferSize te hreach).2 hfit
  have hout : h1 ∉ hdrs te.entries := fun hm => by
    have h0 : hdrSize h1 ≤ hdrsSize (hdrs te.entries) := by
      have := hdrsSize_sublist (List.singleton_sublist.2 hm)
      simpa using this
    rw [i1] at hle
    have h3 : bufferSize < hdrSize h1 := hbig1
    omega
  obtain ⟨b1, _⟩ := encode_big i1 i2 hp1 (by rw [i3]; exact hbig1) hout he1
  have hreach1 : EncReach isRequest bufferSize te1 := .step hreach he1
  have hnil : te1.entries = [] := by rw [b1]
  obtain ⟨_, k2, k3⟩ := C135_reset isRequest bufferSize te1 te2 te3 hreach1 streams hb h2 hp2 hbig2 (by rw [hnil]; simp) (by rw [hnil]; simp)
    fuel f2 he2 msgs frames hms
  exact ⟨k2, k3⟩

/-- C135.  The code violates that a frame that is refused has no effect: the first frame is cut off and refused, then arrives as a
whole; the second frame then gives a header that was not sent. -/
theorem C135_false : ∃ (f1 f2 : List Nat) (te : Tab) (d2 d3 : Tab) (out : List Hdr),
    encodeAll 3 (initTab true 4096) [[(b!"x", b!"abc"), (b!"y", b!"d")], [(b!"y", b!"d")]] = some (.ok (te, [f1, f2])) ∧
    (decodeHeaders (initTab true 4096) (f1.take 16)).2 = .error .index ∧
    decodeHeaders (decodeHeaders (initTab true 4096) (f1.take 16)).1 f1 = (d2, .ok out) ∧
    decodeHeaders d2 f2 = (d3, .ok [(b!"x", b!"abc"), (b!"y", b!"d")]) :=
  ⟨_, _, _, _, _, _, rfl, rfl, rfl, rfl⟩

/-- Some messages with a header larger than the buffer of 1400 bytes, twice. -/
private def bigMsgs : List (List Hdr) := [[(b!"x", b!"y")], [(b!"big", List.replicate 1400 97)], [(b!"big", List.replicate 1400 98)], [(b!"x", b!"y")]]

/-- A decoder that got nonsense and then the last two frames. -/
example : (match encodeAll 3 (initTab true 1400) bigMsgs with
    | some (.ok (_, fs)) =>
      let td := decoderAfter true 1400 [[0, 0, 0, 0, 0, 0, 0, 0, 0x81, 0x40, 1, 120, 1, 122, 0xff, 0x70], [1, 2], fs[0]?.getD []]
      let r := decodeHeaders td (fs[2]?.getD [])
      some (td.entries.length, r.1.entries.length, r.2.toOption == some [(b!"big", List.replicate 1400 98)],
        (decodeHeaders r.1 (fs[3]?.getD [])).2.toOption == some [(b!"x", b!"y")])
    | _ => none) = some (32, 0, true, true) := by decide +kernel
example : (hdrsSize (defaultHeaders true) : Int) ≤ 1400 := by decide +kernel

end Verif.Props
