import Verif.Http2.Session
import Verif.Http2.Dec
/- Reachable encoder states, and the round trip of one message. -/
namespace Verif.Http2
open Verif Spec

/-- States of an encoder: fresh, or after a call (successful or not) of encode_headers. -/
inductive EncReach (isRequest : Bool) (bufferSize : Int) : Tab → Prop
  | init : EncReach isRequest bufferSize (initTab isRequest bufferSize)
  | step {t t' : Tab} {fuel : Nat} {hs : List Hdr} {r : Py (List Nat)} :
      EncReach isRequest bufferSize t → encodeHeaders fuel t hs = some (t', r) →
      EncReach isRequest bufferSize t'

/-! ### The initial table -/

theorem initTab_eq (isRequest : Bool) (bs : Int) :
    initTab isRequest bs =
      { entries := (defaultHeaders isRequest).map fun h => { header := h },
        size := hdrsSize (defaultHeaders isRequest), max := bs } := by
  have gen : ∀ (l : List Hdr) (t : Tab),
      l.foldl (fun t h => { t with entries := t.entries ++ [{ header := h }], size := t.size + entryLen h }) t =
        { entries := t.entries ++ l.map fun h => { header := h },
          size := t.size + hdrsSize l, max := t.max } := by
    intro l
    induction l with
    | nil => intro t; simp
    | cons h l ih => intro t; rw [List.foldl_cons, ih]; simp [entryLen_eq]; omega
  unfold initTab
  rw [gen]; simp

theorem defaultHeaders_nodup (b : Bool) : (defaultHeaders b).Nodup := by
  cases b <;> decide +kernel

theorem hdrs_initTab (b : Bool) (bs : Int) : hdrs (initTab b bs).entries = defaultHeaders b := by
  rw [initTab_eq]; simp [hdrs, Function.comp_def]

theorem initTab_sizeOK (b : Bool) (bs : Int) : SizeOK (initTab b bs) := by
  unfold SizeOK; rw [hdrs_initTab]; rw [initTab_eq]

theorem initTab_nodup (b : Bool) (bs : Int) : (hdrs (initTab b bs).entries).Nodup := by
  rw [hdrs_initTab]; exact defaultHeaders_nodup b

theorem erase_initTab (b : Bool) (bs : Int) : erase (initTab b bs) = initTab b bs := by
  rw [initTab_eq]; simp [erase, erase1, Function.comp_def]

/-! ### One call of encode_headers -/

theorem frame_ok {w f : List Nat} (h : frame w = .ok f) :
    w.length < 65536 ∧ f = [w.length / 256, w.length % 256, 0, 0, 0, 0, 0, 0] ++ w := by
  unfold frame packH at h
  by_cases hl : w.length < 65536
  · simp [hl, bind, Except.bind, pure, Except.pure] at h
    exact ⟨hl, by rw [← h]; simp⟩
  · simp [hl, bind, Except.bind] at h

theorem frame_error {w : List Nat} {e : PyErr} (h : frame w = .error e) :
    65536 ≤ w.length ∧ e = .struct := by
  unfold frame packH at h
  by_cases hl : w.length < 65536
  · simp [hl, bind, Except.bind, pure, Except.pure] at h
  · simp [hl, bind, Except.bind] at h
    exact ⟨by omega, h.symm⟩

theorem encodeHeaders_cases {t t' : Tab} (hn : (hdrs t.entries).Nodup) {fuel : Nat} {hs : List Hdr}
    {r : Py (List Nat)} (h : encodeHeaders fuel t hs = some (t', r)) :
    ∃ l w, loopTab fuel (sentTab t hs) (keptRefs t hs) = some (t', l) ∧
      encodeBody fuel t hs = some (.ok (t', w)) ∧ r = frame w ∧
      Steps { erase t with entries := resetEmitted (erase t).entries } w (erase t') (toSend t hs ++ l) := by
  cases hl : loopTab fuel (sentTab t hs) (keptRefs t hs) with
  | none =>
    have := (encodeBody_none hn fuel hs).2 hl
    simp [encodeHeaders, this] at h
  | some q =>
    obtain ⟨t2, l⟩ := q
    obtain ⟨w, h1, h2⟩ := encodeBody_steps hn hl
    simp only [encodeHeaders, h1, Option.some.injEq, Prod.mk.injEq] at h
    obtain ⟨rfl, rfl⟩ := h
    exact ⟨l, w, rfl, h1, rfl, h2⟩

theorem encodeHeaders_none {t : Tab} (hn : (hdrs t.entries).Nodup) (fuel : Nat) (hs : List Hdr) :
    encodeHeaders fuel t hs = none ↔ loopTab fuel (sentTab t hs) (keptRefs t hs) = none := by
  rw [← encodeBody_none hn]
  unfold encodeHeaders
  cases encodeBody fuel t hs with
  | none => simp
  | some r => cases r <;> simp

theorem sentTab_max (t : Tab) (hs : List Hdr) : (sentTab t hs).max = t.max := by
  have gen : ∀ (l : List Hdr) (t : Tab), (l.foldl encTab t).max = t.max := by
    intro l
    induction l with
    | nil => intro t; rfl
    | cons h l ih => intro t; rw [List.foldl_cons, ih, encTab_max]
  unfold sentTab removedTab
  rw [gen, (unref_foldl_size _ _).2]; rfl

theorem removedTab_size (t : Tab) (hs : List Hdr) : (removedTab t hs).size = t.size := by
  unfold removedTab; rw [(unref_foldl_size _ _).1]; rfl

theorem removedTab_max (t : Tab) (hs : List Hdr) : (removedTab t hs).max = t.max := by
  unfold removedTab; rw [(unref_foldl_size _ _).2]; rfl

theorem removedTab_hdrs {t : Tab} (hn : (hdrs t.entries).Nodup) (hs : List Hdr) :
    hdrs (removedTab t hs).entries = hdrs t.entries := by
  unfold removedTab; rw [unref_foldl_hdrs, hdrs_startTab hn]

theorem foldl_enc (l : List Hdr) : ∀ {t : Tab}, SizeOK t → (hdrs t.entries).Nodup →
    SizeOK (l.foldl encTab t) ∧ (hdrs (l.foldl encTab t).entries).Nodup ∧
    (Fits t → Fits (l.foldl encTab t)) ∧ (∀ R, PathsIn R (l.foldl encTab t) → PathsIn R t) := by
  induction l with
  | nil => intro t h1 h2; exact ⟨h1, h2, id, fun _ h => h⟩
  | cons h l ih =>
    intro t h1 h2
    obtain ⟨a, b, c, d⟩ := ih (encTab_sizeOK h1 h) (encTab_nodup h1 h2 h)
    exact ⟨a, b, fun hf => c (encTab_fits h1 h (Or.inl hf)), fun R hR => pathsIn_back h1 (d R hR)⟩

theorem sentTab_inv {t : Tab} (hsz : SizeOK t) (hn : (hdrs t.entries).Nodup) (hs : List Hdr) :
    SizeOK (sentTab t hs) ∧ (hdrs (sentTab t hs).entries).Nodup ∧
    (Fits t → Fits (sentTab t hs)) ∧ (∀ R, PathsIn R (sentTab t hs) → PathsIn R t) := by
  have h0 := removedTab_inv hsz hn hs
  obtain ⟨a, b, c, d⟩ := foldl_enc (toSend t hs) h0.size h0.nodup
  refine ⟨a, b, fun hf => c ?_, fun R hR => ?_⟩
  · unfold Fits at hf ⊢
    rw [removedTab_size, removedTab_max]
    rcases hf with hf | hf
    · exact Or.inl hf
    · right
      have := removedTab_hdrs hn hs
      rw [hf] at this
      simpa [hdrs] using this
  · have := d R hR
    intro r hr hp
    have := this r hr (by rw [removedTab_max]; exact hp)
    rwa [removedTab_hdrs hn] at this

/-- Everything that one call preserves. -/
theorem encodeHeaders_inv {t t' : Tab} (hsz : SizeOK t) (hn : (hdrs t.entries).Nodup) {fuel : Nat}
    {hs : List Hdr} {r : Py (List Nat)} (h : encodeHeaders fuel t hs = some (t', r)) :
    SizeOK t' ∧ (hdrs t'.entries).Nodup ∧ t'.max = t.max ∧ (Fits t → Fits t') ∧
      (∀ R, PathsIn R t' → PathsIn R t) := by
  obtain ⟨l, w, hl, _, _, _⟩ := encodeHeaders_cases hn h
  obtain ⟨h1, h2, _, _⟩ := message_output hsz hn hl
  obtain ⟨a1, a2, a3, a4⟩ := sentTab_inv hsz hn hs
  obtain ⟨_, b2, b3, b4⟩ := loopTab_sizeOK _ _ _ _ _ a1 hl
  exact ⟨h1, h2, b2.trans (sentTab_max t hs), fun hf => b3 (a3 hf), fun R hR => a4 R (b4 R hR)⟩

/-- Round trip of one message. -/
theorem message_roundtrip {t t' : Tab} (hsz : SizeOK t) (hn : (hdrs t.entries).Nodup) {fuel : Nat}
    {hs : List Hdr} {f : List Nat} (h : encodeHeaders fuel t hs = some (t', .ok f)) :
    ∃ out, decodeHeaders (erase t) f = (erase t', .ok out) ∧ SameSet out hs ∧
      (hs.Nodup → out.Perm hs) := by
  obtain ⟨l, w, hl, _, hr, hst⟩ := encodeHeaders_cases hn h
  obtain ⟨_, _, h3, h4⟩ := message_output hsz hn hl
  obtain ⟨_, hf⟩ := frame_ok hr.symm
  refine ⟨toSend t hs ++ l ++ remainingHeaders t'.entries, ?_, h3, h4⟩
  have hdrop : f.drop 8 = w := by rw [hf]; rfl
  have hrem : remainingHeaders (erase t').entries = remainingHeaders t'.entries := by
    simp [remainingHeaders, erase, List.filter_map, Function.comp_def]
  unfold decodeHeaders
  simp only [hdrop]
  rw [hst.decode]
  simp only [hrem]

/-! ### Reachable states -/

theorem EncReach.inv {b : Bool} {bs : Int} {t : Tab} (h : EncReach b bs t) :
    SizeOK t ∧ (hdrs t.entries).Nodup ∧ t.max = bs ∧
      (Fits (initTab b bs) → Fits t) ∧ (∀ R, PathsIn R t → PathsIn R (initTab b bs)) := by
  induction h with
  | init => exact ⟨initTab_sizeOK b bs, initTab_nodup b bs, by rw [initTab_eq], id, fun _ h => h⟩
  | step _ he ih =>
    obtain ⟨a1, a2, a3, a4, a5⟩ := ih
    obtain ⟨b1, b2, b3, b4, b5⟩ := encodeHeaders_inv a1 a2 he
    exact ⟨b1, b2, b3.trans a3, fun hf => b4 (a4 hf), fun R hR => a5 R (b5 R hR)⟩

theorem Fits.le {t : Tab} (h : Fits t) (hs : SizeOK t) (h0 : 0 ≤ t.max) : t.size ≤ t.max := by
  rcases h with h | h
  · exact h
  · rw [hs, h]; simpa using h0

theorem encodeAll_inv {fuel : Nat} (ms : List (List Hdr)) : ∀ {t t' : Tab} {fs : List (List Nat)},
    SizeOK t → (hdrs t.entries).Nodup → encodeAll fuel t ms = some (.ok (t', fs)) →
    ∃ outs, decodeAll (erase t) fs = .ok (erase t', outs) ∧ List.Forall₂ SameSet outs ms ∧
      List.Forall₂ (fun o m => m.Nodup → List.Perm o m) outs ms := by
  induction ms with
  | nil =>
    intro t t' fs _ _ h
    simp only [encodeAll, Option.some.injEq, Except.ok.injEq, Prod.mk.injEq] at h
    obtain ⟨rfl, rfl⟩ := h
    exact ⟨[], rfl, List.Forall₂.nil, List.Forall₂.nil⟩
  | cons m ms ih =>
    intro t t' fs hsz hn h
    unfold encodeAll at h
    cases h1 : encodeHeaders fuel t m with
    | none => simp [h1] at h
    | some q =>
      obtain ⟨t1, r⟩ := q
      cases r with
      | error e => simp [h1] at h
      | ok f =>
        simp only [h1] at h
        cases h2 : encodeAll fuel t1 ms with
        | none => simp [h2] at h
        | some r =>
          cases r with
          | error e => simp [h2] at h
          | ok q =>
            obtain ⟨t2, fs2⟩ := q
            simp only [h2, Option.some.injEq, Except.ok.injEq, Prod.mk.injEq] at h
            obtain ⟨rfl, rfl⟩ := h
            obtain ⟨a1, a2, _⟩ := encodeHeaders_inv hsz hn h1
            obtain ⟨out, b1, b2, b3⟩ := message_roundtrip hsz hn h1
            obtain ⟨outs, c1, c2, c3⟩ := ih a1 a2 h2
            refine ⟨out :: outs, ?_, List.Forall₂.cons b2 c2, List.Forall₂.cons b3 c3⟩
            simp [decodeAll, b1, c1, bind, Except.bind, pure, Except.pure]

end Verif.Http2
