import Verif.Http2.More
/-
Property theorems for compressor/http2 (C01..C11).
-/
namespace Verif.Props
open Verif Verif.Http2 Verif.Http2.Spec

/-! ### Sample messages used by the non-vacuity examples -/

private def sampleMsgs : List (List Hdr) :=
  [[(b!":path", b!"/"), (b!":method", b!"get"), (b!"x", b!"yy")],
   [(b!":path", b!"/a"), (b!":method", b!"get"), (b!"x", b!"yz"), (b!"x", b!"yz")],
   [],
   [(b!":path", b!"/"), (b!":method", b!"get"), (b!"x", b!"yy")]]

/-! ### C01 -/

/-- C01.  Every session that the encoder gets through decodes, without exception, to lists with
exactly the headers that were sent. -/
theorem C01_http2_session_roundtrip (isRequest : Bool) (bufferSize : Int) (fuel : Nat)
    (msgs : List (List Hdr)) (te : Tab) (frames : List (List Nat))
    (henc : encodeAll fuel (initTab isRequest bufferSize) msgs = some (.ok (te, frames))) :
    ∃ td outs, decodeAll (initTab isRequest bufferSize) frames = .ok (td, outs) ∧
      List.Forall₂ (fun out msg => ∀ h : Hdr, h ∈ out ↔ h ∈ msg) outs msgs := by
  obtain ⟨outs, h1, h2, _⟩ := encodeAll_inv msgs (initTab_sizeOK _ _) (initTab_nodup _ _) henc
  rw [erase_initTab] at h1
  exact ⟨_, outs, h1, h2⟩

example : ∃ te frames, encodeAll 3 (initTab true 4096) sampleMsgs = some (.ok (te, frames)) ∧
    frames.length = 4 := by
  refine ⟨_, _, rfl, by decide +kernel⟩

/-- The same with a buffer smaller than the predefined table, where adding evicts. -/
example : (encodeAll 3 (initTab true 100) [[(b!"x", b!"yy")], [(b!"z", b!"yy"), (b!"x", b!"yy")]]).isSome
    = true := by decide +kernel

/-! ### C02 -/

/-- C02.  At every message boundary of every successful session the two tables have the same
headers in the same order, the same reference set, the same accounted size and limit. -/
theorem C02_http2_tables_in_sync (isRequest : Bool) (bufferSize : Int) (fuel : Nat)
    (msgs : List (List Hdr)) (te : Tab) (frames : List (List Nat))
    (henc : encodeAll fuel (initTab isRequest bufferSize) msgs = some (.ok (te, frames))) (n : Nat) :
    ∃ ten tdn outs,
      encodeAll fuel (initTab isRequest bufferSize) (msgs.take n) = some (.ok (ten, frames.take n)) ∧
      decodeAll (initTab isRequest bufferSize) (frames.take n) = .ok (tdn, outs) ∧
      tdn.entries.map (·.header) = ten.entries.map (·.header) ∧
      tdn.entries.map (·.referenced) = ten.entries.map (·.referenced) ∧
      tdn.size = ten.size ∧ tdn.max = ten.max := by
  obtain ⟨ten, h1⟩ := encodeAll_take msgs n henc
  obtain ⟨outs, h2, _, _⟩ := encodeAll_inv _ (initTab_sizeOK _ _) (initTab_nodup _ _) h1
  rw [erase_initTab] at h2
  exact ⟨ten, erase ten, outs, h1, h2, by simp [erase, Function.comp_def],
    by simp [erase, Function.comp_def], rfl, rfl⟩

example : ∃ te frames, encodeAll 3 (initTab false 1400)
    [[(b!":status", b!"200"), (b!"server", b!"apache")], [(b!":status", b!"404"), (b!"server", b!"apache")]]
      = some (.ok (te, frames)) ∧ te.entries.length = 32 := by
  refine ⟨_, _, rfl, by decide +kernel⟩

/-! ### C03 -/

/-- C03, encoder.  In every reachable encoder state the accounted size is the sum of
`len(name) + len(value) + 32` over the entries, and if the predefined table fits in the buffer then
the bound always holds. -/
theorem C03_http2_encoder_size (isRequest : Bool) (bufferSize : Int) (t : Tab)
    (h : EncReach isRequest bufferSize t) :
    t.size = ((t.entries.map fun e => e.header.1.length + e.header.2.length + 32).sum : Nat) ∧
    ((hdrsSize (defaultHeaders isRequest) : Int) ≤ bufferSize → t.size ≤ bufferSize) := by
  obtain ⟨h1, _, h3, h4, _⟩ := h.inv
  refine ⟨?_, ?_⟩
  · have : (t.entries.map fun e => e.header.1.length + e.header.2.length + 32).sum =
        hdrsSize (hdrs t.entries) := by
      simp only [hdrsSize, hdrs, List.map_map]; rfl
    rw [this]; exact h1
  · intro hle
    have hf : Fits (initTab isRequest bufferSize) := by
      left; rw [initTab_eq]; exact hle
    have := (h4 hf).le h1 (by rw [h3]; omega)
    rw [h3] at this; exact this

/-- C03, encoder, from any state whose bookkeeping is right (not only fresh ones): whatever list is
encoded, once the bound holds it holds afterwards. -/
theorem C03_http2_encoder_bound_kept (t t' : Tab) (fuel : Nat) (hs : List Hdr) (r : Py (List Nat))
    (hsize : t.size = ((t.entries.map fun e => e.header.1.length + e.header.2.length + 32).sum : Nat))
    (hdup : (t.entries.map (·.header)).Nodup)
    (h : encodeHeaders fuel t hs = some (t', r)) (hle : t.size ≤ t.max) :
    t'.size ≤ t.max ∧
    t'.size = ((t'.entries.map fun e => e.header.1.length + e.header.2.length + 32).sum : Nat) := by
  have conv : ∀ t : Tab, (t.entries.map fun e => e.header.1.length + e.header.2.length + 32).sum =
      hdrsSize (hdrs t.entries) := by
    intro t; simp only [hdrsSize, hdrs, List.map_map]; rfl
  rw [conv] at hsize
  obtain ⟨a1, a2, a3, a4, _⟩ := encodeHeaders_inv (t := t) hsize hdup h
  refine ⟨?_, by rw [conv]; exact a1⟩
  have := (a4 (Or.inl hle)).le a1 (by rw [a3]; omega)
  rw [a3] at this; exact this

/-- C03, decoder.  Decoding any sequence of byte strings, valid or not, keeps the accounting exact
and never takes a table that fits over its limit. -/
theorem C03_http2_decoder_size (t : Tab) (streams : List (List Nat))
    (hbytes : ∀ s ∈ streams, ∀ b ∈ s, b < 256)
    (hsize : t.size = ((t.entries.map fun e => e.header.1.length + e.header.2.length + 32).sum : Nat)) :
    let t' := streams.foldl (fun t s => (decodeHeaders t s).1) t
    t'.size = ((t'.entries.map fun e => e.header.1.length + e.header.2.length + 32).sum : Nat) ∧
    t'.max = t.max ∧ (t.size ≤ t.max → t'.size ≤ t'.max) := by
  have conv : ∀ t : Tab, (t.entries.map fun e => e.header.1.length + e.header.2.length + 32).sum =
      hdrsSize (hdrs t.entries) := by
    intro t; simp only [hdrsSize, hdrs, List.map_map]; rfl
  simp only [conv] at hsize ⊢
  induction streams generalizing t with
  | nil => exact ⟨hsize, rfl, id⟩
  | cons s ss ih =>
    have step : SizeOK (decodeHeaders t s).1 ∧ (decodeHeaders t s).1.max = t.max ∧
        (t.size ≤ t.max → (decodeHeaders t s).1.size ≤ t.max) := by
      have h0 : SizeOK { t with entries := resetEmitted t.entries } := by
        unfold SizeOK hdrs resetEmitted; simpa [Function.comp_def, hdrs] using hsize
      obtain ⟨a1, a2, a3⟩ := decodeLoop_sizeOK (s.drop 8).length _ [] (s.drop 8)
        (fun b hb => hbytes s (by simp) b (List.mem_of_mem_drop hb)) h0
      have hfst : (decodeHeaders t s).1 =
          (decodeLoop (s.drop 8).length { t with entries := resetEmitted t.entries } [] (s.drop 8)).1 := by
        unfold decodeHeaders
        dsimp only
        split <;> rename_i heq <;> rw [heq]
      rw [hfst]; exact ⟨a1, a2, a3⟩
    obtain ⟨b1, b2, b3⟩ := ih (decodeHeaders t s).1 (fun s' hs' => hbytes s' (by simp [hs'])) step.1
    simp only [List.foldl_cons]
    exact ⟨b1, b2.trans step.2.1, fun hle => b3 (by rw [step.2.1]; exact step.2.2 hle)⟩

/-- A malicious frame (substitution with a long value) is within the theorem's scope. -/
example : (decodeHeaders (initTab true 1262) ([0, 0, 0, 0, 0, 0, 0, 0] ++ [0, 1, 120, 0, 3, 97, 97, 97])).1.size
    = 1255 := by decide +kernel

/-! ### C04 -/

/-- C04.  Duplicate-free lists come out as permutations: nothing is delivered twice. -/
theorem C04_http2_no_duplicates (isRequest : Bool) (bufferSize : Int) (fuel : Nat)
    (msgs : List (List Hdr)) (te : Tab) (frames : List (List Nat))
    (hnd : ∀ m ∈ msgs, m.Nodup)
    (henc : encodeAll fuel (initTab isRequest bufferSize) msgs = some (.ok (te, frames))) :
    ∃ td outs, decodeAll (initTab isRequest bufferSize) frames = .ok (td, outs) ∧
      List.Forall₂ (fun out msg => List.Perm out msg) outs msgs := by
  obtain ⟨outs, h1, hss, h3⟩ := encodeAll_inv msgs (initTab_sizeOK _ _) (initTab_nodup _ _) henc
  rw [erase_initTab] at h1
  refine ⟨_, outs, h1, ?_⟩
  clear h1 henc hss
  induction h3 with
  | nil => exact List.Forall₂.nil
  | cons hab _ ih =>
    exact List.Forall₂.cons (hab (hnd _ (by simp))) (ih (fun m hm => hnd m (by simp [hm])))

/-- A session in which a kept reference is evicted and sent again (buffer 100: two entries). -/
example :
    let msgs : List (List Hdr) :=
      [[(b!"a", b!"1")], [(b!"a", b!"1"), (b!"b", b!"2")], [(b!"a", b!"1"), (b!"b", b!"3")]]
    (∀ m ∈ msgs, m.Nodup) ∧
    (encodeAll 5 (initTab true 70) msgs).isSome = true := by
  refine ⟨by decide +kernel, by decide +kernel⟩

/-! ### C05 -/

/-- C05 (partial).  Full claim: `encode_headers` returns for every reachable state and every list.
Proved: it does, within one more pass than there are headers, when the predefined table fits in the
buffer and the list does not contain `(":path", "/")` or this is not in the reference set.  Missing: the claim
is false for lists with that header, see `C05_http2_encode_diverges`, and for buffers smaller than the
predefined table, see `C05_http2_encode_diverges_small_buffer`. -/
theorem C05_http2_encode_terminates_partial (isRequest : Bool) (bufferSize : Int) (t : Tab)
    (h : EncReach isRequest bufferSize t)
    (hfit : (hdrsSize (defaultHeaders isRequest) : Int) ≤ bufferSize)
    (hs : List Hdr) (hpath : (b!":path", b!"/") ∉ hs ∨
      ∀ e ∈ t.entries, e.header = (b!":path", b!"/") → e.referenced = false) (fuel : Nat) (hfuel : hs.length < fuel) :
    ∃ t' r, encodeHeaders fuel t hs = some (t', r) := by
  obtain ⟨h1, h2, h3, h4, h5⟩ := h.inv
  have hf : Fits (initTab isRequest bufferSize) := by left; rw [initTab_eq]; exact hfit
  have hle := (h4 hf).le h1 (by rw [h3]; omega)
  obtain ⟨k1, k2, k3⟩ := keptRefs_spec h2 hs
  obtain ⟨s1, s2, _, _⟩ := sentTab_inv h1 h2 hs
  have hmemhs : ∀ r ∈ keptRefs t hs, r ∈ hs := fun r hr => k2.mem_iff.1 (List.mem_append_left _ hr)
  have hmemt : ∀ r ∈ keptRefs t hs, r ∈ hdrs t.entries := by
    intro r hr
    obtain ⟨e, e1, e2, _⟩ := k3 r hr
    exact mem_hdrs.2 ⟨e, e1, e2⟩
  have hnopath : ∀ r ∈ keptRefs t hs, r.1 ≠ b!":path" := by
    intro r hr hp
    -- a `:path` header in the table is the predefined one
    have hin : PathsIn [r] (initTab isRequest bufferSize) := h5 [r] (by
      intro x hx _; simp at hx; subst hx; exact hmemt x hr)
    have hin' := hin r (by simp) (Or.inl hp)
    rw [hdrs_initTab] at hin'
    have hdef : ∀ b : Bool, ∀ x ∈ defaultHeaders b, x.1 = b!":path" → x = (b!":path", b!"/") := by
      decide +kernel
    have := hdef _ r hin' hp
    subst this
    rcases hpath with hpath | hpath
    · exact hpath (hmemhs _ hr)
    · obtain ⟨e, e1, e2, e3⟩ := k3 _ hr
      rw [hpath e e1 e2] at e3; simp at e3
  have hRle : (hdrsSize (keptRefs t hs) : Int) ≤ (sentTab t hs).max := by
    rw [sentTab_max]
    have := hdrsSize_subset k1 (fun x hx => hmemt x hx)
    have e : t.size = hdrsSize (hdrs t.entries) := h1
    omega
  have hlen : (keptRefs t hs).length ≤ hs.length := by
    have := k2.length_eq
    simp at this; omega
  obtain ⟨q, hq⟩ := loopTab_terminates hnopath fuel (L := [])
    ⟨s1, s2, by simp, (sentTab t hs).entries, [], by simp, rfl⟩ hRle (by simp; omega)
  cases he : encodeHeaders fuel t hs with
  | none =>
    rw [encodeHeaders_none h2, hq] at he
    cases he
  | some q => exact ⟨q.1, q.2, rfl⟩

example : (hdrsSize (defaultHeaders true) : Int) ≤ 4096 ∧ (hdrsSize (defaultHeaders false) : Int) ≤ 4096 ∧
    EncReach true 4096 (initTab true 4096) := by
  refine ⟨by decide +kernel, by decide +kernel, EncReach.init⟩

/-- The table of the default request codec after one message `[(":path", "/")]`. -/
private def afterSlash : Tab :=
  match encodeHeaders 1 (initTab true 4096) [(b!":path", b!"/")] with
  | some (t, _) => t
  | none => initTab true 4096

/-- C05, the claim is false.  Default request codec (4096): after `[(":path", "/")]`, encoding
`[(":path", "/"), ("x", "aaa…")]` with 4050 `a`s never returns, however many passes are allowed. -/
theorem C05_http2_encode_diverges :
    ∃ t f, encodeHeaders 1 (initTab true 4096) [(b!":path", b!"/")] = some (t, .ok f) ∧
      ∀ fuel, encodeHeaders fuel t [(b!":path", b!"/"), (b!"x", List.replicate 4050 97)] = none := by
  have h1 : encodeHeaders 1 (initTab true 4096) [(b!":path", b!"/")] =
      some (afterSlash, .ok [0, 1, 0, 0, 0, 0, 0, 0, 131]) := by decide +kernel
  refine ⟨afterSlash, _, h1, fun fuel => ?_⟩
  have hr : EncReach true 4096 afterSlash := EncReach.step EncReach.init h1
  obtain ⟨a1, a2, a3, _, _⟩ := hr.inv
  rw [encodeHeaders_none a2]
  obtain ⟨s1, _, _, _⟩ := sentTab_inv a1 a2 [(b!":path", b!"/"), (b!"x", List.replicate 4050 97)]
  refine loopTab_diverges (r := (b!":path", b!"/")) ?_ (Or.inl rfl) s1 ?_ fuel
  · decide +kernel
  · decide +kernel

/-- C05, the claim is also false for a buffer that cannot hold a kept reference: buffer size 0. -/
theorem C05_http2_encode_diverges_small_buffer :
    ∃ t f, encodeHeaders 1 (initTab false 0) [(b!":status", b!"200")] = some (t, .ok f) ∧
      ∀ fuel, encodeHeaders fuel t [(b!":status", b!"200"), (b!"x", b!"y")] = none := by
  have h1 : ∃ t, encodeHeaders 1 (initTab false 0) [(b!":status", b!"200")] =
      some (t, .ok [0, 1, 0, 0, 0, 0, 0, 0, 128]) ∧
      (b!":status", b!"200") ∈ keptRefs t [(b!":status", b!"200"), (b!"x", b!"y")] ∧
      (b!":status", b!"200") ∉ hdrs (sentTab t [(b!":status", b!"200"), (b!"x", b!"y")]).entries :=
    ⟨_, rfl, by decide +kernel, by decide +kernel⟩
  obtain ⟨t, h1, h2, h3⟩ := h1
  refine ⟨t, _, h1, fun fuel => ?_⟩
  have hr : EncReach false 0 t := EncReach.step EncReach.init h1
  obtain ⟨a1, a2, a3, _, _⟩ := hr.inv
  rw [encodeHeaders_none a2]
  obtain ⟨s1, _, _, _⟩ := sentTab_inv a1 a2 [(b!":status", b!"200"), (b!"x", b!"y")]
  exact loopTab_diverges h2 (Or.inr (by rw [sentTab_max, a3]; decide)) s1 h3 fuel

/-! ### C06 -/

/-- C06.  Integers survive, for prefixes 1..8 and every flag pattern above the prefix. -/
theorem C06_http2_integer_roundtrip (p flags v : Nat) (hp0 : 0 < p) (hp : p ≤ 8)
    (hflag : flags % 2 ^ p = 0) (hbyte : flags < 256) (rest : List Nat) :
    ∃ b w, writeInteger flags p v = .ok (b :: w) ∧ readInteger b p (w ++ rest) = .ok (v, rest) := by
  have hle : flags + (2 ^ p - 1) < 256 := by
    have h1 := Nat.div_add_mod flags (2 ^ p)
    have h2 : 2 ^ p * 2 ^ (8 - p) = 256 := by
      rw [← Nat.pow_add]; have : p + (8 - p) = 8 := by omega
      rw [this]
    have hpos : 0 < 2 ^ p := Nat.pos_of_ne_zero (by simp)
    have h3 : flags / 2 ^ p < 2 ^ (8 - p) := by
      by_contra hc
      have := Nat.mul_le_mul_left (2 ^ p) (Nat.not_lt.1 hc)
      omega
    have h4 := Nat.mul_le_mul_left (2 ^ p) (Nat.succ_le_of_lt h3)
    rw [Nat.mul_succ] at h4
    omega
  obtain ⟨b, w, h1, _, _, h4⟩ := readInteger_pos (flags := flags) (v := v) hp0 hp hflag rest
  exact ⟨b, w, by rw [writeInteger_eq hp hle, h1], h4⟩

/-- C06 for prefix 0, where no prefix byte is written. -/
theorem C06_http2_integer_roundtrip_zero (v b : Nat) (rest : List Nat) :
    ∃ w, writeInteger 0 0 v = .ok w ∧ readInteger b 0 (w ++ rest) = .ok (v, rest) :=
  ⟨_, writeInteger_zero v, readInteger_zero b v rest⟩

example : writeInteger 0x40 5 1337 = .ok [95, 154, 10] := by decide +kernel
example : (0x40 : Nat) % 2 ^ 5 = 0 := by decide

/-! ### C07 -/

/-- C07.  The bytes written are those of RFC 7541 section 5.1. -/
theorem C07_http2_integer_is_hpack (p flags v : Nat) (hp : p ≤ 8) (hbyte : flags + (2 ^ p - 1) < 256) :
    writeInteger flags p v = .ok (hpackInt flags p v) := writeInteger_eq hp hbyte

/-- C07.  No byte string that the reader maps to `v` is shorter than what the writer produces. -/
theorem C07_http2_integer_shortest (p flags v b : Nat) (w rest out : List Nat) (hp : p ≤ 8)
    (hbyte : flags + (2 ^ p - 1) < 256) (hw : writeInteger flags p v = .ok out)
    (hr : readInteger b p (w ++ rest) = .ok (v, rest)) :
    out.length ≤ (if p = 0 then 0 else 1) + w.length := by
  rw [writeInteger_eq hp hbyte] at hw
  cases hw
  have := readInteger_min hp hr flags
  simp at this; omega

/-- C07.  No encoding is a prefix of the encoding of another value (so encodings are distinct). -/
theorem C07_http2_integer_prefix_free (p flags v v' : Nat) (w w' x y : List Nat) (hp : p ≤ 8)
    (hflag : flags % 2 ^ p = 0) (hbyte : flags + (2 ^ p - 1) < 256)
    (hw : writeInteger flags p v = .ok w) (hw' : writeInteger flags p v' = .ok w')
    (heq : w ++ x = w' ++ y) : v = v' := by
  rw [writeInteger_eq hp hbyte] at hw hw'
  cases hw; cases hw'
  by_cases hp0 : p = 0
  · subst hp0
    have e : ∀ v, hpackInt flags 0 v = hpackTail v := by intro v; simp [hpackInt]
    rw [e, e] at heq
    have h1 := readInteger_zero 0 v x
    have h2 := readInteger_zero 0 v' y
    rw [heq, h2] at h1
    cases h1; rfl
  · obtain ⟨b, w, h1, _, _, h4⟩ := readInteger_pos (flags := flags) (v := v) (by omega) hp hflag x
    obtain ⟨b', w', h1', _, _, h4'⟩ := readInteger_pos (flags := flags) (v := v') (by omega) hp hflag y
    rw [h1, h1'] at heq
    simp only [List.cons_append, List.cons.injEq] at heq
    obtain ⟨rfl, heq⟩ := heq
    rw [heq, h4'] at h4
    cases h4; rfl

example : hpackInt 0 5 1337 = [31, 154, 10] := by simp [hpackInt, hpackTail]
example : readInteger 31 5 ([154, 10] ++ [7]) = .ok (1337, [7]) := by decide +kernel

/-! ### C08 -/

/-- C08.  On every byte string and every table decoding returns a list or raises IndexError; the
list has at most one header per payload byte plus one per table entry. -/
theorem C08_http2_decoder_total (t : Tab) (stream : List Nat) (hbytes : ∀ b ∈ stream, b < 256) :
    (decodeHeaders t stream).2 = .error .index ∨
    ∃ out, (decodeHeaders t stream).2 = .ok out ∧
      out.length ≤ (stream.length - 8) + (decodeHeaders t stream).1.entries.length := by
  rcases decodeLoop_cases (stream.drop 8).length { t with entries := resetEmitted t.entries } []
    (stream.drop 8) (fun b hb => hbytes b (List.mem_of_mem_drop hb)) (Nat.le_refl _) with h | ⟨out, h, hl⟩
  all_goals
    unfold decodeHeaders
    dsimp only
    generalize decodeLoop (stream.drop 8).length { t with entries := resetEmitted t.entries } []
      (stream.drop 8) = q at h
    obtain ⟨t', r⟩ := q
    dsimp only at h
    subst h
  · exact Or.inl rfl
  · refine Or.inr ⟨_, rfl, ?_⟩
    have := List.length_filter_le (fun e : HeaderEntry => e.referenced && !e.emitted) t'.entries
    simp only [List.length_append, remainingHeaders, List.length_map]
    simp at hl ⊢; omega

/-- C08.  The eight frame-header bytes are ignored: only the rest and the table matter. -/
theorem C08_http2_decoder_ignores_frame_header (t : Tab) (s s' : List Nat) (h : s.drop 8 = s'.drop 8) :
    decodeHeaders t s = decodeHeaders t s' := by
  unfold decodeHeaders; rw [h]

example : (decodeHeaders (initTab true 4096) [1, 2, 3, 4, 5, 6, 7, 8, 0xff, 0x80]).2 = .error .index := by
  decide +kernel
example : (decodeHeaders (initTab true 4096) [1, 2, 3, 4, 5, 6, 7, 8, 0x84]).2
    = .ok [(b!":method", b!"get")] := by decide +kernel

/-! ### C09 -/

/-- C09, where cuts are noticed.  A string literal cut to its first `n` bytes is rejected exactly
when the cut falls inside its length; a cut inside its characters yields a shorter string. -/
theorem C09_http2_literal_cut_partial (s : Str) (w : List Nat) (hw : writeLiteralString s = .ok w) (n : Nat) :
    readLiteralString (w.take n) =
      if n < w.length - s.length then .error .index else .ok (s.take (n - (w.length - s.length)), []) := by
  rw [writeLiteralString_eq] at hw
  cases hw
  have : (hpackTail s.length ++ s).length - s.length = (hpackTail s.length).length := by simp
  rw [this]; exact readLiteralString_cut s n

/-- C09, the claim is false.  From every reachable state and for every header not in the table, the
frame of the message `[h]` can lose any number of its last `len(value)` bytes and is still
accepted, with the value shortened. -/
theorem C09_http2_truncation_accepted (isRequest : Bool) (bufferSize : Int) (te te' td : Tab)
    (msgs : List (List Hdr)) (frames : List (List Nat)) (outs : List (List Hdr)) (fuel : Nat)
    (henc : encodeAll fuel (initTab isRequest bufferSize) msgs = some (.ok (te, frames)))
    (hdec : decodeAll (initTab isRequest bufferSize) frames = .ok (td, outs))
    (h : Hdr) (hnew : h ∉ te.entries.map (·.header)) (f : List Nat)
    (hf : encodeHeaders (fuel + 1) te [h] = some (te', .ok f)) (k : Nat) (hk : k ≤ h.2.length) :
    (decodeHeaders td (f.take (f.length - (h.2.length - k)))).2 = .ok [(h.1, h.2.take k)] := by
  obtain ⟨outs', h1, _, _⟩ := encodeAll_inv msgs (initTab_sizeOK _ _) (initTab_nodup _ _) henc
  rw [erase_initTab, hdec] at h1
  cases h1
  have hinv : SizeOK te ∧ (hdrs te.entries).Nodup := by
    clear hdec hnew hf
    have gen : ∀ (ms : List (List Hdr)) (t t' : Tab) (fs : List (List Nat)), SizeOK t →
        (hdrs t.entries).Nodup → encodeAll fuel t ms = some (.ok (t', fs)) →
        SizeOK t' ∧ (hdrs t'.entries).Nodup := by
      intro ms
      induction ms with
      | nil =>
        intro t t' fs a b h
        simp only [encodeAll, Option.some.injEq, Except.ok.injEq, Prod.mk.injEq] at h
        rw [← h.1]; exact ⟨a, b⟩
      | cons m ms ih =>
        intro t t' fs a b h
        unfold encodeAll at h
        cases h1 : encodeHeaders fuel t m with
        | none => simp [h1] at h
        | some q =>
          obtain ⟨t1, r⟩ := q
          cases r with
          | error e => simp [h1] at h
          | ok f =>
            simp only [h1] at h
            cases h2 : encodeAll fuel t1 ms with
            | none => simp [h2] at h
            | some r =>
              cases r with
              | error e => simp [h2] at h
              | ok q =>
                simp only [h2, Option.some.injEq, Except.ok.injEq, Prod.mk.injEq] at h
                obtain ⟨c1, c2, _⟩ := encodeHeaders_inv a b h1
                have := ih t1 q.1 q.2 c1 c2 h2
                rw [h.1] at this; exact this
    exact gen msgs _ _ _ (initTab_sizeOK _ _) (initTab_nodup _ _) henc
  obtain ⟨td, h2⟩ := cut_frame hinv.1 hinv.2 hnew hf k hk
  rw [h2]

/-- The hypotheses are met, e.g. cutting two bytes off the frame of `[("x", "abc")]`. -/
example : ∃ te' f, encodeHeaders 1 (initTab true 4096) [(b!"x", b!"abc")] = some (te', .ok f) ∧
    (decodeHeaders (initTab true 4096) (f.take (f.length - 2))).2 = .ok [(b!"x", b!"a")] :=
  ⟨_, _, rfl, by decide +kernel⟩

/-! ### C10 -/

/-- C10, exact behaviour.  A substitution evicts the least number `k` of leading entries that makes
room.  If the target survives, it is replaced in place.  If it was evicted, the entry goes to
position `max(0, m - (k - i))` of the `m` remaining ones (the claim says position 0).  If there is
no room even in the empty table, the table becomes empty. -/
theorem C10_http2_substitution_exact (t : Tab) (e old : HeaderEntry) (i : Nat)
    (hsize : t.size = ((t.entries.map fun e => e.header.1.length + e.header.2.length + 32).sum : Nat))
    (hi : t.entries[i]? = some old) :
    -- size of the table if `j` entries were evicted and then `e` put in
    let need := fun j : Nat => (hdrsSize ((t.entries.drop j).map (·.header)) : Int) + hdrSize e.header
      - (if i < j then 0 else hdrSize old.header)
    ∃ t' k, insertHeader t e i = .ok t' ∧
      (∀ j < k, t.max < need j) ∧
      ((k ≤ i ∧ need k ≤ t.max ∧ t'.entries = (t.entries.drop k).set (i - k) e) ∨
       (i < k ∧ k ≤ t.entries.length ∧ need k ≤ t.max ∧
          t'.entries = (t.entries.drop k).take (t.entries.length - k - (k - i)) ++
            e :: (t.entries.drop k).drop (t.entries.length - k - (k - i))) ∨
       (k = t.entries.length ∧ t.max < need k ∧ t'.entries = [])) := by
  have conv : (t.entries.map fun e => e.header.1.length + e.header.2.length + 32).sum =
      hdrsSize (hdrs t.entries) := by simp only [hdrsSize, hdrs, List.map_map]; rfl
  rw [conv] at hsize
  obtain ⟨t', k, h1, _, _, h4, h5⟩ := insertHeader_spec (t := t) hsize e hi
  refine ⟨t', k, h1, h4, ?_⟩
  rcases h5 with ⟨a, b, _, d⟩ | ⟨a, b, c, _, d⟩ | ⟨a, b, c, _⟩
  · exact Or.inl ⟨a, b, d⟩
  · refine Or.inr (Or.inl ⟨a, b, c, ?_⟩)
    simpa using d
  · exact Or.inr (Or.inr ⟨a, b, c⟩)

/-- C10, the claim is false.  In the default request table limited to 1262 bytes, substituting a
88-byte entry for the first one evicts three entries and lands at position 24 of 28, not 0. -/
theorem C10_http2_substitution_misplaced :
    ∃ t' old, (initTab true 1262).entries[0]? = some old ∧
      insertHeader (initTab true 1262)
        { header := (b!"x", List.replicate 55 97), referenced := true, emitted := true } 0 = .ok t' ∧
      (t'.entries.map (·.header)).idxOf (b!"x", List.replicate 55 97) = 24 ∧ t'.entries.length = 28 :=
  ⟨_, _, rfl, rfl, by decide +kernel, by decide +kernel⟩

/-- The same through decode_headers, with the byte string that triggers it. -/
example : (((decodeHeaders (initTab true 1262)
    ([0, 0, 0, 0, 0, 0, 0, 0] ++ [0, 1, 120, 0, 55] ++ List.replicate 55 97)).1.entries.map
      (·.header)).idxOf (b!"x", List.replicate 55 97)) = 24 := by decide +kernel

/-! ### C11 -/

/-- C11.  When a frame is returned its first two bytes are the payload length, the next six are
zero, and the payload has at most 65535 bytes. -/
theorem C11_http2_frame_length_partial (isRequest : Bool) (bufferSize : Int) (t t' : Tab)
    (h : EncReach isRequest bufferSize t) (fuel : Nat) (hs : List Hdr) (f : List Nat)
    (hf : encodeHeaders fuel t hs = some (t', .ok f)) :
    ∃ hi lo w, f = [hi, lo, 0, 0, 0, 0, 0, 0] ++ w ∧ hi < 256 ∧ lo < 256 ∧ hi * 256 + lo = w.length := by
  obtain ⟨_, hn, _⟩ := h.inv
  obtain ⟨l, w, _, _, hr, _⟩ := encodeHeaders_cases hn hf
  obtain ⟨h1, h2⟩ := frame_ok hr.symm
  exact ⟨_, _, w, h2, by omega, by omega, by omega⟩

/-- C11.  The only exception is struct.error, raised exactly when the block is over 65535 bytes. -/
theorem C11_http2_oversized_refused_partial (isRequest : Bool) (bufferSize : Int) (t t' : Tab)
    (h : EncReach isRequest bufferSize t) (fuel : Nat) (hs : List Hdr) (r : Py (List Nat))
    (hf : encodeHeaders fuel t hs = some (t', r)) :
    ∃ block, encodeBody fuel t hs = some (.ok (t', block)) ∧
      (65535 < block.length ↔ r = .error .struct) ∧ (block.length ≤ 65535 ↔ ∃ f, r = .ok f) := by
  obtain ⟨_, hn, _⟩ := h.inv
  obtain ⟨l, w, _, hb, rfl, _⟩ := encodeHeaders_cases hn hf
  refine ⟨w, hb, ?_, ?_⟩
  · constructor
    · intro hl
      cases hfr : frame w with
      | ok f => have := (frame_ok hfr).1; omega
      | error e => rw [(frame_error hfr).2]
    · intro he; have := (frame_error he).1; omega
  · constructor
    · intro hl
      cases hfr : frame w with
      | ok f => exact ⟨f, rfl⟩
      | error e => have := (frame_error hfr).1; omega
    · rintro ⟨f, he⟩; have := (frame_ok he).1; omega

/-- C11, the rest of the claim is false.  After any refused message `[("x", v)]` with a value of
65536 bytes or more, the default request encoder has an empty table.  The decoder has not seen
anything, so the next two messages, `[("a", "b")]` and `[]`, decode to `[("a", "b")]` and to
`[(":scheme", "http"), ("a", "b")]`. -/
theorem C11_http2_refused_message_corrupts (v : Str) (hv : 65536 ≤ v.length) :
    ∃ t1 t2 t3 f2 f3 d2 d3,
      encodeHeaders 1 (initTab true 4096) [(b!"x", v)] = some (t1, .error .struct) ∧
      encodeHeaders 1 t1 [(b!"a", b!"b")] = some (t2, .ok f2) ∧
      encodeHeaders 1 t2 [] = some (t3, .ok f3) ∧
      decodeHeaders (initTab true 4096) f2 = (d2, .ok [(b!"a", b!"b")]) ∧
      decodeHeaders d2 f3 = (d3, .ok [(b!":scheme", b!"http"), (b!"a", b!"b")]) := by
  have hout : (b!"x", v) ∉ hdrs (initTab true 4096).entries := by
    rw [hdrs_initTab]
    have : ∀ h ∈ defaultHeaders true, h.1 ≠ b!"x" := by decide +kernel
    exact fun hc => this _ hc rfl
  have hn := initTab_nodup true 4096
  obtain ⟨w1, hb, _⟩ := encodeBody_single hn hout 0
  have ht1 : addLiteral (removedTab (initTab true 4096) [(b!"x", v)]) (b!"x", v) = ⟨[], 0, 4096⟩ := by
    have hi := removedTab_inv (initTab_sizeOK true 4096) hn [(b!"x", v)]
    have hmax : (removedTab (initTab true 4096) [(b!"x", v)]).max = 4096 := by
      rw [removedTab_max, initTab_eq]
    unfold addLiteral
    have hp : ¬ (b!"x" = b!":path") := by decide
    simp only [hp, if_false]
    obtain ⟨k, h1, h2, h3⟩ := appendHeader_spec hi.size
      { header := (b!"x", v), referenced := true, emitted := true }
    generalize appendHeader (removedTab (initTab true 4096) [(b!"x", v)])
      { header := (b!"x", v), referenced := true, emitted := true } = T at *
    have hT : T.entries = [] := by
      rcases h1 with ⟨h1, h4⟩ | ⟨h1, _⟩
      · exfalso
        unfold SizeOK at h2
        rw [h1] at h2
        simp only [hdrs_append, hdrs_cons, hdrs_nil, hdrsSize_append, hdrsSize_cons, hdrsSize_nil,
          hdrSize] at h2
        omega
      · exact h1
    have hS : T.size = 0 := by unfold SizeOK at h2; rw [h2, hT]; rfl
    obtain ⟨es, sz, mx⟩ := T
    simp only at hT hS h3
    subst hT hS
    rw [h3, hmax]
  have hlen : 65536 ≤ (w1 ++ literalBytes (literalFlag (b!"x", v))
      (removedTab (initTab true 4096) [(b!"x", v)]) (b!"x", v)).length := by
    obtain ⟨b, w0, hw, _⟩ := literal_prefix (literalFlag (b!"x", v))
      (by unfold literalFlag; split <;> decide) (removedTab (initTab true 4096) [(b!"x", v)]) (b!"x", v)
    rw [hw]; simp only [List.length_append]; omega
  rw [ht1] at hb
  have he : encodeHeaders 1 (initTab true 4096) [(b!"x", v)] = some (⟨[], 0, 4096⟩, .error .struct) := by
    unfold encodeHeaders
    rw [hb]
    simp only [Option.some.injEq, Prod.mk.injEq, true_and]
    unfold frame packH
    have : ¬ (w1 ++ literalBytes (literalFlag (b!"x", v))
      (removedTab (initTab true 4096) [(b!"x", v)]) (b!"x", v)).length < 65536 := by omega
    rw [if_neg this]; rfl
  exact ⟨_, _, _, _, _, _, _, he, rfl, rfl, rfl, rfl⟩

example : 65536 ≤ (List.replicate 65536 97 : Str).length := by rw [List.length_replicate]

end Verif.Props
