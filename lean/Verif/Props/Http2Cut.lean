import Verif.Http2.Cut
import Verif.Http2.Passes
import Verif.Http2.More
/-
More property theorems about http2: how long encoding takes (C05) and frames that were cut (C09).
-/
namespace Verif.Props
open Verif Verif.Http2 Verif.Http2.Spec

/-! ### C05 -/

/-- C05, exactly when encoding returns, for all buffers: if it returns at all, it does so after at most one pass more
than there are headers. -/
theorem C05_http2_encode_passes (isRequest : Bool) (bufferSize : Int) (t : Tab) (h : EncReach isRequest bufferSize t)
    (hs : List Hdr) (fuel : Nat) (q : Tab × Py (List Nat)) (hq : encodeHeaders fuel t hs = some q) (fuel' : Nat)
    (hf : hs.length < fuel') : encodeHeaders fuel' t hs = some q :=
  encodeHeaders_passes h.inv.1 h.inv.2.1 hq fuel' hf

example : ∃ q, encodeHeaders 100 (initTab true 4096) [(b!":path", b!"/")] = some q := ⟨_, rfl⟩

/-! ### C09 -/

/-- C09, there is only one way to divide a header block into representations. -/
theorem C09_http2_grammar (reps reps' : List (List Nat × Nat)) (h : ∀ r ∈ reps, Rep r.1 r.2) (h' : ∀ r ∈ reps', Rep r.1 r.2)
    (e : reps.flatMap (·.1) = reps'.flatMap (·.1)) : reps = reps' := reps_unique reps reps' h h' e

/-- C09, exactly which cuts are noticed, for any bytes and any table: if representations are accepted as a whole, then their
first `n` bytes (with the frame header) are accepted exactly if the cut is where one of them begins or ends, or inside
the value at the end of one, or inside the frame header; otherwise decoding raises IndexError. -/
theorem C09_http2_cut_exact (t : Tab) (s : List Nat) (reps : List (List Nat × Nat)) (hrep : ∀ r ∈ reps, Rep r.1 r.2)
    (hs : s.drop 8 = reps.flatMap (·.1)) (out : List Hdr) (hok : (decodeHeaders t s).2 = .ok out) (n : Nat) (hn : n ≤ s.length) :
    ((∃ out', (decodeHeaders t (s.take n)).2 = .ok out') ↔ FairCut reps (n - 8)) ∧
    ((decodeHeaders t (s.take n)).2 = .error .index ↔ ¬ FairCut reps (n - 8)) := by
  obtain ⟨h1, h2⟩ := decodeHeaders_cut t s reps hrep hs out hok n hn
  by_cases hc : FairCut reps (n - 8)
  · obtain ⟨o, ho⟩ := h1 hc
    refine ⟨⟨fun _ => hc, fun _ => ⟨o, ho⟩⟩, ⟨fun h => ?_, fun h => absurd hc h⟩⟩
    rw [ho] at h; simp at h
  · have ho := h2 hc
    refine ⟨⟨fun ⟨o, h⟩ => ?_, fun h => absurd h hc⟩, ⟨fun _ => hc, fun _ => ho⟩⟩
    rw [ho] at h; simp at h

/-- C09 for the frames of the encoder: after any session, the frame of any message consists of whole representations, and of
its cuts exactly the ones named in `C09_http2_cut_exact` are accepted by the decoder that has seen the session. -/
theorem C09_http2_frame_cut (isRequest : Bool) (bufferSize : Int) (te te' td : Tab)
    (msgs : List (List Hdr)) (frames : List (List Nat)) (outs : List (List Hdr)) (fuel : Nat)
    (henc : encodeAll fuel (initTab isRequest bufferSize) msgs = some (.ok (te, frames)))
    (hdec : decodeAll (initTab isRequest bufferSize) frames = .ok (td, outs))
    (m : List Hdr) (f : List Nat) (hf : encodeHeaders fuel te m = some (te', .ok f)) :
    ∃ reps : List (List Nat × Nat), (∀ r ∈ reps, Rep r.1 r.2) ∧ f.drop 8 = reps.flatMap (·.1) ∧
      ∀ n, n ≤ f.length → ((∃ out, (decodeHeaders td (f.take n)).2 = .ok out) ↔ FairCut reps (n - 8)) ∧
        ((decodeHeaders td (f.take n)).2 = .error .index ↔ ¬ FairCut reps (n - 8)) := by
  obtain ⟨outs', h1, _, _⟩ := encodeAll_inv msgs (initTab_sizeOK _ _) (initTab_nodup _ _) henc
  rw [erase_initTab, hdec] at h1
  cases h1
  have hinv : SizeOK te ∧ (hdrs te.entries).Nodup := encodeAll_keeps msgs (initTab_sizeOK _ _) (initTab_nodup _ _) henc
  obtain ⟨l, w, _, _, hw, hst⟩ := encodeHeaders_cases hinv.2 hf
  obtain ⟨_, hfw⟩ := frame_ok hw.symm
  obtain ⟨reps, hrep, hreps⟩ := steps_reps hst
  have hdrop : f.drop 8 = reps.flatMap (·.1) := by rw [hfw, ← hreps]; rfl
  refine ⟨reps, hrep, hdrop, fun n hn => ?_⟩
  have hok : ∃ out, (decodeHeaders (erase te) f).2 = .ok out := by
    unfold decodeHeaders
    have : f.drop 8 = w := by rw [hdrop, hreps]
    simp only [this]
    rw [hst.decode]
    exact ⟨_, rfl⟩
  obtain ⟨out, hout⟩ := hok
  exact C09_http2_cut_exact _ _ _ hrep hdrop out hout n hn

/-- The hypotheses are met: the frame of `[("x", "abc")]` is one literal, of which up to three bytes can be cut off. -/
example : ∃ te' f, encodeHeaders 1 (initTab true 4096) [(b!"x", b!"abc")] = some (te', .ok f) ∧
    f.drop 8 = [([0x40, 1, 120, 3, 97, 98, 99], 3)].flatMap (·.1) ∧ Rep [0x40, 1, 120, 3, 97, 98, 99] 3 :=
  ⟨_, _, rfl, by decide +kernel,
    .literal 0x40 (by decide) (by decide) [] 0 (.inl (by decide)) [1, 120] (.inl ⟨rfl, [120], [1], .last 1 (by decide), rfl⟩)
      [3, 97, 98, 99] [97, 98, 99] ⟨[3], .last 3 (by decide), rfl⟩⟩

end Verif.Props
