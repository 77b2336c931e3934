import Verif.Http2.Cost
/-
Property theorems about sizes in http2: what a frame can decode to (C123), what a message can cost (C124) and which
messages cost nothing (C125).
-/
namespace Verif.Props
open Verif Verif.Http2 Verif.Http2.Spec

/-! ### C123 -/

/-- C123, the bound, for any frame and any table that respects its limit: at most one header per payload byte besides the
referenced ones, and in all at most `buffer + 1` bytes per payload byte and one more table. -/
theorem C123_http2_amplification_bound (t t' : Tab) (s : List Nat) (out : List Hdr) (hbytes : ∀ b ∈ s, b < 256)
    (hsize : t.size = ((t.entries.map fun e => e.header.1.length + e.header.2.length + 32).sum : Nat))
    (hfit : t.size ≤ t.max) (h : decodeHeaders t s = (t', .ok out)) :
    out.length ≤ (s.length - 8) + (t.entries.filter (·.referenced)).length ∧
    hdrsBytes out ≤ (s.length - 8) * (t.max.toNat + 1) + t.max.toNat := by
  have conv : (t.entries.map fun e => e.header.1.length + e.header.2.length + 32).sum = hdrsSize (hdrs t.entries) := by
    simp only [hdrsSize, hdrs, List.map_map]; rfl
  rw [conv] at hsize
  exact (decodeHeaders_weight hbytes hsize hfit h).symm

example : (decodeHeaders (initTab true 4096) [0, 1, 0, 0, 0, 0, 0, 0, 0x80]).2 = .ok [(b!":scheme", b!"http")] ∧
    (initTab true 4096).size ≤ (initTab true 4096).max := by decide +kernel

/-- C123, a whole session on the default tables: whatever byte strings came before, accepted or not. -/
theorem C123_http2_amplification (isRequest : Bool) (bufferSize : Nat)
    (hfit : hdrsSize (defaultHeaders isRequest) ≤ bufferSize) (before : List (List Nat))
    (hbefore : ∀ s ∈ before, ∀ b ∈ s, b < 256) (s : List Nat) (hbytes : ∀ b ∈ s, b < 256) (t' : Tab) (out : List Hdr)
    (h : decodeHeaders (before.foldl (fun t s => (decodeHeaders t s).1) (initTab isRequest bufferSize)) s = (t', .ok out)) :
    hdrsBytes out ≤ (s.length - 8) * (bufferSize + 1) + bufferSize := by
  have key : ∀ (l : List (List Nat)) (t : Tab), (∀ s ∈ l, ∀ b ∈ s, b < 256) → SizeOK t → t.size ≤ t.max →
      SizeOK (l.foldl (fun t s => (decodeHeaders t s).1) t) ∧
      (l.foldl (fun t s => (decodeHeaders t s).1) t).max = t.max ∧
      (l.foldl (fun t s => (decodeHeaders t s).1) t).size ≤ t.max := by
    intro l
    induction l with
    | nil => intro t _ a b; exact ⟨a, rfl, b⟩
    | cons x l ih =>
      intro t hb a b
      have hsz' : SizeOK { t with entries := resetEmitted t.entries } := by
        unfold SizeOK at *
        rw [show hdrs (resetEmitted t.entries) = hdrs t.entries by simp [hdrs, resetEmitted, Function.comp_def]]
        exact a
      have hk := decodeLoop_sizeOK (x.drop 8).length { t with entries := resetEmitted t.entries } [] (x.drop 8)
        (fun b hm => hb x (by simp) b (List.mem_of_mem_drop hm)) hsz'
      have e : (decodeHeaders t x).1 =
          (decodeLoop (x.drop 8).length { t with entries := resetEmitted t.entries } [] (x.drop 8)).1 := by
        unfold decodeHeaders
        dsimp only
        split <;> rename_i heq <;> rw [heq]
      rw [← e] at hk
      obtain ⟨k1, k2, k3⟩ := hk
      have k2' : (decodeHeaders t x).1.max = t.max := k2
      have k3' : (decodeHeaders t x).1.size ≤ t.max := k3 b
      obtain ⟨i1, i2, i3⟩ := ih (decodeHeaders t x).1 (fun s hs => hb s (by simp [hs])) k1 (by rw [k2']; exact k3')
      rw [k2'] at i2 i3
      exact ⟨i1, i2, i3⟩
  have hm : (initTab isRequest bufferSize).max = bufferSize := by rw [initTab_eq]
  obtain ⟨a1, a2, a3⟩ := key before (initTab isRequest bufferSize) hbefore (initTab_sizeOK _ _)
    (by rw [initTab_sizeOK isRequest bufferSize, hm, hdrs_initTab]; exact_mod_cast hfit)
  have := (decodeHeaders_weight hbytes a1 (by rw [a2]; exact a3) h).1
  rw [a2, hm] at this
  simpa using this

example : hdrsSize (defaultHeaders true) ≤ 4096 ∧ hdrsSize (defaultHeaders false) ≤ 4096 := by decide +kernel

/-- C123, the order of the bound is reached: with the default buffer a first frame of 4076 bytes and a second of `8 + 2n`
bytes decode to `n` headers of 4064 bytes, for every `n`. -/
theorem C123_http2_amplification_reached (k : Nat) :
    ∃ f1 f2 t' out1 out2, f1.length = 4076 ∧ f2.length = 8 + 2 * (k + 1) ∧ (∀ b ∈ f1 ++ f2, b < 256) ∧
      decodeAll (initTab true 4096) [f1, f2] = .ok (t', [out1, out2]) ∧
      out2.length = k + 1 ∧ hdrsBytes out2 = 4064 * (k + 1) := by
  obtain ⟨hd, hhd⟩ : ∃ hd : Hdr, hd = (b!"a", List.replicate 4063 0) := ⟨_, rfl⟩
  have h1 : decodeHeaders (initTab true 4096)
      ([0, 0, 0, 0, 0, 0, 0, 0] ++ [0x40, 1, 97, 223, 31] ++ List.replicate 4063 0) =
      ({ entries := [{ header := hd, referenced := true, emitted := true }], size := 4096, max := 4096 }, .ok [hd]) := by
    subst hhd
    decide +kernel
  have h2 := decodeHeaders_bomb { entries := [{ header := hd, referenced := true, emitted := true }], size := 4096, max := 4096 }
    { header := hd, referenced := true, emitted := true } [] rfl rfl [0, 0, 0, 0, 0, 0, 0, 0] rfl k
  generalize hq : decodeHeaders { entries := [{ header := hd, referenced := true, emitted := true }], size := 4096, max := 4096 }
    ([0, 0, 0, 0, 0, 0, 0, 0] ++ List.replicate (2 * (k + 1)) 0x80) = q at h2
  obtain ⟨t', r⟩ := q
  dsimp only at h2
  subst h2
  refine ⟨[0, 0, 0, 0, 0, 0, 0, 0] ++ [0x40, 1, 97, 223, 31] ++ List.replicate 4063 0,
    [0, 0, 0, 0, 0, 0, 0, 0] ++ List.replicate (2 * (k + 1)) 0x80, t', [hd], List.replicate (k + 1) hd ++ [],
    ?_, ?_, ?_, ?_, ?_, ?_⟩
  · rw [List.length_append, List.length_append, List.length_replicate]; rfl
  · rw [List.length_append, List.length_replicate]; rfl
  · intro b hb
    rcases List.mem_append.1 hb with hb | hb
    · rcases List.mem_append.1 hb with hb | hb
      · exact (by decide : ∀ b ∈ [0, 0, 0, 0, 0, 0, 0, 0] ++ [0x40, 1, 97, 223, 31], b < 256) b hb
      · rw [(List.mem_replicate.1 hb).2]; decide
    · rcases List.mem_append.1 hb with hb | hb
      · exact (by decide : ∀ b ∈ [0, 0, 0, 0, 0, 0, 0, 0], b < 256) b hb
      · rw [(List.mem_replicate.1 hb).2]; decide
  · simp only [decodeAll, h1, hq, bind, Except.bind, pure, Except.pure]; rfl
  · rw [List.length_append, List.length_replicate]; rfl
  · have hb : hdrBytes hd = 4064 := by
      subst hhd; unfold hdrBytes; rw [List.length_replicate]; rfl
    rw [List.append_nil, hdrsBytes, List.map_replicate, hb, List.sum_replicate_nat, Nat.mul_comm]

/-! ### C124 -/

/-- C124, for every reachable encoder whose buffer holds the predefined table: the payload costs one index for each
reference dropped, and for each header two indices or one index and its text with two lengths.  An index takes at most
`c + 2` bytes if the buffer is at most `32 * 128 ^ (c + 1)`. -/
theorem C124_http2_frame_size (isRequest : Bool) (bufferSize : Int) (t t' : Tab) (h : EncReach isRequest bufferSize t)
    (hfit : (hdrsSize (defaultHeaders isRequest) : Int) ≤ bufferSize) (c : Nat)
    (hc : bufferSize ≤ ((32 * 128 ^ (c + 1) : Nat) : Int)) (fuel : Nat) (hs : List Hdr) (f : List Nat)
    (henc : encodeHeaders fuel t hs = some (t', .ok f)) :
    f.length ≤ 8 + (c + 2) * (t.entries.filter fun e => e.referenced && decide (e.header ∉ hs)).length +
      (hs.map (hdrCost (c + 2))).sum := by
  obtain ⟨a1, a2, a3, a4, _⟩ := h.inv
  have hf : Fits t := a4 (by left; rw [initTab_eq]; exact hfit)
  obtain ⟨l, w, _, hb, hfr, _⟩ := encodeHeaders_cases a2 henc
  obtain ⟨_, hfe⟩ := frame_ok hfr.symm
  have := payload_le (c := c) ⟨a1, hf, by rw [a3]; exact hc⟩ a2 hb
  unfold hdrsCost at this
  rw [hfe]; simp only [List.length_append, List.length_cons, List.length_nil]; omega

example : ∃ t' f, encodeHeaders 10 (initTab true 4096) [(b!"k", b!"v"), (b!":scheme", b!"http")] = some (t', .ok f) ∧
    f.length = 14 := ⟨_, _, rfl, rfl⟩

/-- C124, the default buffer: a frame is at most 8 bytes longer than its headers for each of them, plus two for every
reference dropped, plus its own 8. -/
theorem C124_http2_frame_overhead (isRequest : Bool) (t t' : Tab) (h : EncReach isRequest 4096 t)
    (fuel : Nat) (hs : List Hdr) (f : List Nat) (henc : encodeHeaders fuel t hs = some (t', .ok f))
    (hsmall : ∀ h ∈ hs, h.1.length < 128 ^ 3 ∧ h.2.length < 128 ^ 3) :
    f.length ≤ 8 + 2 * (t.entries.filter fun e => e.referenced && decide (e.header ∉ hs)).length +
      (hs.map fun h => h.1.length + h.2.length + 8).sum := by
  have h1 := C124_http2_frame_size isRequest 4096 t t' h (by cases isRequest <;> decide +kernel) 0 (by decide) fuel hs f henc
  have h2 : (hs.map (hdrCost 2)).sum ≤ (hs.map fun h => h.1.length + h.2.length + 8).sum := by
    clear henc h1
    induction hs with
    | nil => simp
    | cons x hs ih =>
      have a := hsmall x (by simp)
      have b := ih (fun y hy => hsmall y (by simp [hy]))
      have d1 := digits128_le 2 _ a.1
      have d2 := digits128_le 2 _ a.2
      simp only [List.map_cons, List.sum_cons]
      unfold hdrCost at b ⊢
      omega
  simp only [Nat.zero_add] at h1
  omega

example : ∃ t', EncReach true 4096 t' ∧ encodeHeaders 10 (initTab true 4096) [(b!"k", b!"v")] =
    some (t', .ok [0, 5, 0, 0, 0, 0, 0, 0, 0x40, 1, 107, 1, 118]) :=
  ⟨_, EncReach.step EncReach.init (fuel := 10) (hs := [(b!"k", b!"v")]) rfl, rfl⟩

/-! ### C125 -/

/-- C125, exactly which messages cost nothing: for every reachable encoder, a list without repetitions gives the empty frame
exactly if it is the reference set. -/
theorem C125_http2_empty_iff (isRequest : Bool) (bufferSize : Int) (t : Tab) (h : EncReach isRequest bufferSize t)
    (hs : List Hdr) (hnd : hs.Nodup) (fuel : Nat) :
    (∃ t', encodeHeaders (fuel + 1) t hs = some (t', .ok [0, 0, 0, 0, 0, 0, 0, 0])) ↔
    ∀ x, x ∈ hs ↔ ∃ e ∈ t.entries, e.referenced = true ∧ e.header = x := by
  obtain ⟨a1, a2, _⟩ := h.inv
  constructor
  · rintro ⟨t', he⟩
    obtain ⟨l, w, _, hb, hfr, _⟩ := encodeHeaders_cases a2 he
    obtain ⟨_, hfe⟩ := frame_ok hfr.symm
    have : w = [] := by
      have := congrArg List.length hfe
      simp only [List.length_append, List.length_cons, List.length_nil] at this
      exact List.length_eq_zero_iff.1 (by omega)
    subst this
    exact free_only a1 a2 hb
  · intro hr
    exact ⟨startTab t hs, by simp [encodeHeaders, free_message a2 hnd hr fuel, frame_nil]⟩

example : ∃ t', encodeHeaders 10 (initTab true 4096) [(b!"k", b!"v"), (b!":scheme", b!"http")] =
      some (t', .ok [0, 6, 0, 0, 0, 0, 0, 0, 0x40, 1, 107, 1, 118, 0x80]) ∧
    (∃ t2, encodeHeaders 10 t' [(b!":scheme", b!"http"), (b!"k", b!"v")] = some (t2, .ok [0, 0, 0, 0, 0, 0, 0, 0])) :=
  ⟨_, rfl, _, rfl⟩

/-- C125, repetition: if a message fits into the table beside what is there, and its `:path` is there already or it has none,
then sending it again, in whatever order and however often, costs 8 bytes each time. -/
theorem C125_http2_repeat_free (isRequest : Bool) (bufferSize : Int) (t t' : Tab) (h : EncReach isRequest bufferSize t)
    (hs : List Hdr) (fuel : Nat) (r : Py (List Nat)) (hroom : t.size + hdrsSize hs ≤ bufferSize)
    (hpath : ∀ x ∈ hs, x.1 ≠ b!":path" ∨ x ∈ t.entries.map (·.header))
    (henc : encodeHeaders fuel t hs = some (t', r)) (again : List (List Hdr))
    (hagain : ∀ m ∈ again, m.Nodup ∧ SameSet m hs) (fuel' : Nat) :
    ∃ t'', encodeAll (fuel' + 1) t' again = some (.ok (t'', again.map fun _ => [0, 0, 0, 0, 0, 0, 0, 0])) := by
  obtain ⟨a1, a2, a3, _⟩ := h.inv
  obtain ⟨b1, b2⟩ := refs_after a1 a2 (by rw [a3]; exact hroom) hpath henc
  exact free_messages again b2 b1 hagain fuel'

example : ∃ t' r, encodeHeaders 10 (initTab true 4096) [(b!"k", b!"v"), (b!":path", b!"/")] = some (t', r) ∧
    (initTab true 4096).size + hdrsSize [(b!"k", b!"v"), (b!":path", b!"/")] ≤ 4096 :=
  ⟨_, _, rfl, by decide +kernel⟩

/-- C125, without room this fails: a repeated message can cost its full text every time. -/
theorem C125_http2_repeat_not_free : ∃ (t1 t2 : Tab) (f1 f2 : List Nat),
    encodeHeaders 10 (initTab true 4096) [(b!":path", b!"/x")] = some (t1, .ok f1) ∧
    encodeHeaders 10 t1 [(b!":path", b!"/x")] = some (t2, .ok f2) ∧ f2 = f1 ∧ 8 < f2.length :=
  ⟨_, _, _, _, rfl, rfl, rfl, by decide +kernel⟩

end Verif.Props
