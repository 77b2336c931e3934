import Verif.Http2.CostSpec
import Verif.Http2.Passes
import Verif.Http2.Cut
/-
Sizes: what a frame can decode to, and what a message can cost.
-/
namespace Verif.Http2
open Verif Spec

/-! ### Decoding -/

/-- Number of entries that are referenced and were not emitted yet. -/
def pend (es : List HeaderEntry) : Nat := (es.filter fun e => e.referenced && !e.emitted).length

theorem pend_append (a b : List HeaderEntry) : pend (a ++ b) = pend a + pend b := by simp [pend]

theorem pend_cons (e : HeaderEntry) (es : List HeaderEntry) :
    pend (e :: es) = (if e.referenced && !e.emitted then 1 else 0) + pend es := by
  unfold pend; rw [List.filter_cons]; split <;> simp <;> omega

theorem pend_drop (k : Nat) (es : List HeaderEntry) : pend (es.drop k) ≤ pend es :=
  (List.Sublist.filter _ (List.drop_sublist k es)).length_le

theorem pend_set (es : List HeaderEntry) : ∀ (i : Nat) (e : HeaderEntry), (e.referenced && !e.emitted) = false →
    pend (es.set i e) ≤ pend es := by
  induction es with
  | nil => intro i e _; simp
  | cons x es ih =>
    intro i e he
    cases i with
    | zero => rw [List.set_cons_zero, pend_cons, pend_cons, he]; simp
    | succ i => rw [List.set_cons_succ, pend_cons, pend_cons]; have := ih i e he; omega

theorem hdrsBytes_append (a b : List Hdr) : hdrsBytes (a ++ b) = hdrsBytes a + hdrsBytes b := by simp [hdrsBytes]

theorem hdrBytes_le_size (h : Hdr) : hdrBytes h ≤ hdrSize h := by unfold hdrBytes hdrSize; omega

theorem hdrsBytes_le_size (l : List Hdr) : hdrsBytes l ≤ hdrsSize l := by
  induction l with
  | nil => simp [hdrsBytes, hdrsSize]
  | cons h l ih =>
    have := hdrBytes_le_size h
    simp only [hdrsBytes, hdrsSize, List.map_cons, List.sum_cons] at ih ⊢; omega

theorem hdrsBytes_sublist {a b : List Hdr} (h : a.Sublist b) : hdrsBytes a ≤ hdrsBytes b := by
  induction h with
  | slnil => simp
  | cons x _ ih => simp only [hdrsBytes, List.map_cons, List.sum_cons] at ih ⊢; omega
  | cons_cons x _ ih => simp only [hdrsBytes, List.map_cons, List.sum_cons] at ih ⊢; omega

theorem mem_hdrsBytes {h : Hdr} {l : List Hdr} (hm : h ∈ l) : hdrBytes h ≤ hdrsBytes l := by
  induction l with
  | nil => simp at hm
  | cons x l ih =>
    simp only [hdrsBytes, List.map_cons, List.sum_cons] at ih ⊢
    rcases List.mem_cons.1 hm with rfl | hm
    · omega
    · have := ih hm; omega

theorem readLiteralString_len {rest : List Nat} {v r}
    (h : readLiteralString rest = .ok (v, r)) : v.length + r.length ≤ rest.length := by
  unfold readLiteralString at h
  rcases readInteger_cases (p := 0) (by decide) 0 rest with h1 | ⟨n, r1, h1, hl⟩
  · simp [h1, bind, Except.bind] at h
  · simp only [h1, bind, Except.bind, pure, Except.pure, Except.ok.injEq, Prod.mk.injEq] at h
    rw [← h.1, ← h.2]
    simp; omega

theorem decodeName_len {t : Tab} {n M : Nat} {rest : List Nat} {v r}
    (hM : ∀ e ∈ t.entries, hdrBytes e.header ≤ M)
    (h : decodeName t n rest = .ok (v, r)) : v.length + r.length ≤ M + rest.length := by
  unfold decodeName at h
  split at h
  · have := readLiteralString_len h; omega
  · split at h
    · cases h
    · rename_i e he
      simp only [Except.ok.injEq, Prod.mk.injEq] at h
      have := hM _ (List.mem_of_getElem? he)
      unfold hdrBytes at this
      rw [← h.1, ← h.2]; omega

theorem appendHeader_pend {t : Tab} (hs : SizeOK t) (e : HeaderEntry) (he : (e.referenced && !e.emitted) = false) :
    pend (appendHeader t e).entries ≤ pend t.entries := by
  obtain ⟨k, hk, _⟩ := appendHeader_spec hs e
  rcases hk with ⟨hk, _⟩ | ⟨hk, _⟩
  · rw [hk, pend_append, pend_cons, he]
    have := pend_drop k t.entries
    simp [pend] at this ⊢; omega
  · rw [hk]; simp [pend]

theorem insertHeader_pend {t t' : Tab} (hs : SizeOK t) (e : HeaderEntry) {i : Nat} (he : (e.referenced && !e.emitted) = false)
    (h : insertHeader t e i = .ok t') : pend t'.entries ≤ pend t.entries := by
  cases hi : t.entries[i]? with
  | none => simp [insertHeader, hi] at h
  | some old =>
    obtain ⟨t2, k, h1, _, _, _, h5⟩ := insertHeader_spec hs e hi
    rw [h1] at h; cases h
    have hd := pend_drop k t.entries
    rcases h5 with ⟨_, _, _, h⟩ | ⟨_, _, _, _, h⟩ | ⟨_, _, h, _⟩
    · rw [h]; exact (pend_set _ _ _ he).trans hd
    · rw [h, pend_append, pend_cons, he]
      have := pend_append ((t.entries.drop k).take ((t.entries.drop k).length - (k - i)))
        ((t.entries.drop k).drop ((t.entries.drop k).length - (k - i)))
      rw [List.take_append_drop] at this
      simp only [Bool.false_eq_true, if_false]; omega
    · rw [h]; simp [pend]

/-- One representation: at most one header, spelt from its own bytes and at most one entry. -/
theorem decodeStep_weight {t : Tab} {byte M : Nat} {rest : List Nat} {s : DecStep} (hs : SizeOK t)
    (hM : ∀ e ∈ t.entries, hdrBytes e.header ≤ M) (h : decodeStep t byte rest = .ok s) :
    hdrsBytes s.out + s.rest.length ≤ M + rest.length ∧
    pend s.tab.entries + s.out.length ≤ pend t.entries + 1 := by
  have one : ∀ h : Hdr, hdrsBytes [h] = hdrBytes h := by intro h; simp [hdrsBytes]
  rw [decodeStep_eq] at h
  split at h
  · unfold decodeIndexed at h
    rcases readInteger_cases (p := 7) (by decide) byte rest with h1 | ⟨v, r, h1, hl⟩
    · simp [h1, bind, Except.bind] at h
    · simp only [h1, bind, Except.bind] at h
      split at h
      · cases h
      · rename_i e he
        have hb := hM _ (List.mem_of_getElem? he)
        split at h
        · simp only [pure, Except.pure, Except.ok.injEq] at h; subst h
          refine ⟨by simp [hdrsBytes]; omega, ?_⟩
          have := pend_set t.entries v { e with referenced := false, emitted := false } rfl
          simp only [List.length_nil]; omega
        · simp only [pure, Except.pure, Except.ok.injEq] at h; subst h
          refine ⟨by simp only [one]; omega, ?_⟩
          have := pend_set t.entries v { e with referenced := true, emitted := true } rfl
          simp only [List.length_cons, List.length_nil]; omega
  · split at h
    · unfold plainLiteral at h
      rcases readInteger_cases (p := 5) (by decide) byte rest with h1 | ⟨v, r, h1, hl⟩
      · simp [h1, bind, Except.bind] at h
      simp only [h1, bind, Except.bind] at h
      cases h2 : decodeName t v r with
      | error e => simp [h2] at h
      | ok q2 =>
        simp only [h2] at h
        cases h4 : readLiteralString q2.2 with
        | error e => simp [h4] at h
        | ok q4 =>
          simp only [h4, pure, Except.pure, Except.ok.injEq] at h; subst h
          have a := decodeName_len hM h2
          have b := readLiteralString_len h4
          refine ⟨by simp only [one, hdrBytes]; omega, ?_⟩
          have : pend (if (!byte.testBit 5) = true then
              appendHeader t { header := (q2.1, q4.1), referenced := true, emitted := true } else t).entries
              ≤ pend t.entries := by
            split
            · exact appendHeader_pend hs _ rfl
            · exact Nat.le_refl _
          simp only [List.length_cons, List.length_nil]; omega
    · unfold substLiteral at h
      rcases readInteger_cases (p := 6) (by decide) byte rest with h1 | ⟨v, r, h1, hl⟩
      · simp [h1, bind, Except.bind] at h
      simp only [h1, bind, Except.bind] at h
      cases h2 : decodeName t v r with
      | error e => simp [h2] at h
      | ok q2 =>
        simp only [h2] at h
        rcases readInteger_cases (p := 0) (by decide) 0 q2.2 with h3 | ⟨ri, r3, h3, hl3⟩
        · simp [h3] at h
        simp only [h3] at h
        cases h4 : readLiteralString r3 with
        | error e => simp [h4] at h
        | ok q4 =>
          simp only [h4] at h
          split at h
          · cases h
          · rename_i t' h5
            simp only [pure, Except.pure, Except.ok.injEq] at h; subst h
            have a := decodeName_len hM h2
            have b := readLiteralString_len h4
            refine ⟨by simp only [one, hdrBytes]; omega, ?_⟩
            have := insertHeader_pend hs _ rfl h5
            simp only [List.length_cons, List.length_nil]; omega

theorem entry_le {t : Tab} (hs : SizeOK t) (hfit : t.size ≤ t.max) :
    hdrsBytes (hdrs t.entries) ≤ t.max.toNat ∧ ∀ e ∈ t.entries, hdrBytes e.header ≤ t.max.toNat := by
  have h1 := hdrsBytes_le_size (hdrs t.entries)
  have h2 : t.size = hdrsSize (hdrs t.entries) := hs
  have h3 : hdrsBytes (hdrs t.entries) ≤ t.max.toNat := by omega
  exact ⟨h3, fun e he => (mem_hdrsBytes (mem_hdrs.2 ⟨e, he, rfl⟩)).trans h3⟩

theorem decodeLoop_weight : ∀ fuel (t : Tab) (hs : List Hdr) (rest : List Nat) (out : List Hdr),
    (∀ b ∈ rest, b < 256) → SizeOK t → t.size ≤ t.max → (decodeLoop fuel t hs rest).2 = .ok out →
    hdrsBytes out ≤ hdrsBytes hs + rest.length * (t.max.toNat + 1) ∧
    pend (decodeLoop fuel t hs rest).1.entries + out.length ≤ pend t.entries + hs.length + rest.length := by
  intro fuel
  induction fuel with
  | zero =>
    intro t hs rest out _ _ _ h
    cases rest with
    | nil => simp only [decodeLoop, Except.ok.injEq] at h ⊢; subst h; exact ⟨by simp, by simp⟩
    | cons b rest => simp [decodeLoop] at h
  | succ n ih =>
    intro t hs rest out hb hsz hfit h
    cases rest with
    | nil => simp only [decodeLoop, Except.ok.injEq] at h ⊢; subst h; exact ⟨by simp, by simp⟩
    | cons b rest =>
      rcases decodeStep_cases t (hb b (by simp)) rest with h1 | ⟨s, h1, hl, _, hts⟩
      · simp [decodeLoop, h1] at h
      · simp only [decodeLoop, h1] at h ⊢
        obtain ⟨a1, a2, a3⟩ := TabStep.sizeOK hsz hts
        obtain ⟨w1, w2⟩ := decodeStep_weight hsz (entry_le hsz hfit).2 h1
        have hsuf := decodeStep_suffix h1
        obtain ⟨b1, b2⟩ := ih s.tab (hs ++ s.out) s.rest out
          (fun x hx => hb x (List.mem_cons_of_mem _ (hsuf.subset hx))) a1 (a3 hfit) h
        rw [a2, hdrsBytes_append] at b1
        rw [List.length_append] at b2
        refine ⟨?_, by simp only [List.length_cons]; omega⟩
        obtain ⟨d, hd⟩ := Nat.exists_eq_add_of_le hl
        simp only [List.length_cons]
        rw [hd] at w1 ⊢
        have e1 : (s.rest.length + d + 1) * (t.max.toNat + 1) =
          s.rest.length * (t.max.toNat + 1) + d * (t.max.toNat + 1) + (t.max.toNat + 1) := by ring
        have e2 : d ≤ d * (t.max.toNat + 1) := Nat.le_mul_of_pos_right _ (by omega)
        omega

theorem decodeHeaders_weight {t t' : Tab} {s : List Nat} {out : List Hdr} (hb : ∀ b ∈ s, b < 256)
    (hsz : SizeOK t) (hfit : t.size ≤ t.max) (h : decodeHeaders t s = (t', .ok out)) :
    hdrsBytes out ≤ (s.length - 8) * (t.max.toNat + 1) + t.max.toNat ∧
    out.length ≤ (s.length - 8) + (t.entries.filter (·.referenced)).length := by
  unfold decodeHeaders at h
  dsimp only at h
  have hsz' : SizeOK { t with entries := resetEmitted t.entries } := by
    unfold SizeOK at *
    rw [show hdrs (resetEmitted t.entries) = hdrs t.entries by simp [hdrs, resetEmitted, Function.comp_def]]
    exact hsz
  have hbd : ∀ b ∈ s.drop 8, b < 256 := fun b hm => hb b (List.mem_of_mem_drop hm)
  have hk := decodeLoop_sizeOK (s.drop 8).length { t with entries := resetEmitted t.entries } [] (s.drop 8) hbd hsz'
  generalize hr : decodeLoop (s.drop 8).length { t with entries := resetEmitted t.entries } [] (s.drop 8) = r at h hk
  obtain ⟨t2, res⟩ := r
  cases res with
  | error e => simp at h
  | ok hd =>
    simp only [Prod.mk.injEq, Except.ok.injEq] at h
    obtain ⟨rfl, rfl⟩ := h
    have := decodeLoop_weight _ _ _ _ hd hbd hsz' hfit (by rw [hr])
    rw [hr] at this
    obtain ⟨w1, w2⟩ := this
    obtain ⟨k1, k2, k3⟩ := hk
    have k2 : t2.max = t.max := k2
    have e3 : hdrsBytes (hdrs t2.entries) ≤ t2.max.toNat := (entry_le k1 (by rw [k2]; exact k3 hfit)).1
    have hsub : hdrsBytes (remainingHeaders t2.entries) ≤ hdrsBytes (hdrs t2.entries) :=
      hdrsBytes_sublist (List.filter_sublist.map _)
    have hpl : (remainingHeaders t2.entries).length = pend t2.entries := by simp [remainingHeaders, pend]
    have hp0 : pend (resetEmitted t.entries) = (t.entries.filter (·.referenced)).length := by
      simp [pend, resetEmitted, List.filter_map, Function.comp_def]
    have h0 : hdrsBytes [] = 0 := rfl
    dsimp only at w1 w2
    rw [k2] at e3
    rw [h0, List.length_drop] at w1
    rw [hp0, List.length_drop] at w2
    rw [hdrsBytes_append, List.length_append, hpl]
    simp only [List.length_nil] at w2
    constructor <;> omega

/-! ### Repeating one entry -/

theorem readIndex0 (rest : List Nat) : readInteger 0x80 7 rest = .ok (0, rest) := by
  rw [readInteger_unfold (by decide)]; rfl

theorem toggle_pair (t : Tab) (e : HeaderEntry) (es : List HeaderEntry) (he : t.entries = e :: es)
    (hr : e.referenced = true) (hs : List Hdr) (n : Nat) (rest : List Nat) :
    decodeLoop (n + 2) t hs (0x80 :: 0x80 :: rest) =
      decodeLoop n { t with entries := { e with emitted := true } :: es } (hs ++ [e.header]) rest := by
  have h80 : (0x80 &&& 0x80 : Nat) ≠ 0 := by decide
  have s1 : decodeStep t 0x80 (0x80 :: rest) =
      .ok { tab := { t with entries := { e with referenced := false, emitted := false } :: es }, out := [], rest := 0x80 :: rest } := by
    unfold decodeStep
    rw [if_pos h80]
    simp [decodeIndexed, readIndex0, bind, Except.bind, he, hr, pure, Except.pure]
  have s2 : decodeStep { t with entries := { e with referenced := false, emitted := false } :: es } 0x80 rest =
      .ok { tab := { t with entries := { e with emitted := true } :: es }, out := [e.header], rest := rest } := by
    unfold decodeStep
    rw [if_pos h80]
    simp [decodeIndexed, readIndex0, bind, Except.bind, pure, Except.pure, hr]
  rw [decodeLoop, s1]; dsimp only
  rw [decodeLoop, s2]; dsimp only
  rw [List.append_nil]

theorem toggle_loop : ∀ (k : Nat) (t : Tab) (e : HeaderEntry) (es : List HeaderEntry), t.entries = e :: es →
    e.referenced = true → ∀ (hs : List Hdr) (rest : List Nat), rest = List.replicate (2 * k) 0x80 →
    decodeLoop (2 * k) t hs rest =
      ({ t with entries := (if k = 0 then e else { e with emitted := true }) :: es },
        .ok (hs ++ List.replicate k e.header)) := by
  intro k
  induction k with
  | zero =>
    intro t e es he hr hs rest hrest
    subst hrest
    simp [decodeLoop, ← he]
  | succ k ih =>
    intro t e es he hr hs rest hrest
    subst hrest
    rw [show 2 * (k + 1) = 2 * k + 2 by ring, List.replicate_succ, List.replicate_succ,
      toggle_pair t e es he hr, ih _ { e with emitted := true } es rfl hr _ _ rfl]
    have : List.replicate (k + 1) e.header = e.header :: List.replicate k e.header := rfl
    simp [this]

theorem decodeHeaders_bomb (t : Tab) (e : HeaderEntry) (es : List HeaderEntry) (he : t.entries = e :: es)
    (hr : e.referenced = true) (pre : List Nat) (h8 : pre.length = 8) (k : Nat) :
    (decodeHeaders t (pre ++ List.replicate (2 * (k + 1)) 0x80)).2 =
      .ok (List.replicate (k + 1) e.header ++ (es.filter (·.referenced)).map (·.header)) := by
  unfold decodeHeaders
  dsimp only
  have hd : (pre ++ List.replicate (2 * (k + 1)) 0x80).drop 8 = List.replicate (2 * (k + 1)) 0x80 := by
    rw [← h8, List.drop_left]
  rw [hd, List.length_replicate, toggle_loop (k + 1) { t with entries := resetEmitted t.entries }
    { e with emitted := false } (resetEmitted es) (by simp [he, resetEmitted]) hr [] _ rfl]
  dsimp only
  simp [remainingHeaders, resetEmitted, List.filter_map, Function.comp_def]

/-! ### Encoding -/

theorem digits128_tail (v : Nat) : (hpackTail v).length = digits128 v := by
  induction v using Nat.strong_induction_on with
  | _ v ih =>
    by_cases h : v < 128
    · rw [hpackTail_lt h, digits128, if_pos h]; rfl
    · rw [hpackTail_ge h, digits128, if_neg h]
      have := ih (v / 128) (by omega)
      simp only [List.length_cons]; omega

theorem digits128_le (c : Nat) : ∀ v, v < 128 ^ (c + 1) → digits128 v ≤ c + 1 := by
  induction c with
  | zero => intro v h; rw [digits128, if_pos (by simpa using h)]
  | succ c ih =>
    intro v h
    rw [digits128]
    split
    · omega
    · have := ih (v / 128) (by
        rw [Nat.div_lt_iff_lt_mul (by decide)]; rw [pow_succ] at h; exact h)
      omega

theorem digits128_mono {a b : Nat} (h : a ≤ b) : digits128 a ≤ digits128 b := by
  induction b using Nat.strong_induction_on generalizing a with
  | _ b ih =>
    rw [digits128, digits128.eq_def b]
    split
    · split <;> omega
    · rw [if_neg (by omega)]
      have := ih (b / 128) (by omega) (a := a / 128) (by omega)
      omega

theorem hpackInt_len (flags p v : Nat) (hp : 0 < p) : (hpackInt flags p v).length ≤ 1 + digits128 (v - (2 ^ p - 1)) := by
  unfold hpackInt
  split
  · simp
  · rw [if_neg (by omega)]; simp [digits128_tail]; omega

/-- The table is consistent and small enough for indices of `c + 2` bytes. -/
structure Cheap (c : Nat) (t : Tab) : Prop where
  size : SizeOK t
  fits : Fits t
  small : t.max ≤ ((32 * 128 ^ (c + 1) : Nat) : Int)

theorem hdrsSize_ge (l : List Hdr) : 32 * l.length ≤ hdrsSize l := by
  induction l with
  | nil => simp
  | cons h l ih => simp only [hdrsSize, List.map_cons, List.sum_cons, hdrSize, List.length_cons] at ih ⊢; omega

theorem Cheap.len {c : Nat} {t : Tab} (h : Cheap c t) : t.entries.length ≤ 128 ^ (c + 1) := by
  rcases h.fits with hf | hf
  · have h1 := hdrsSize_ge (hdrs t.entries)
    have h2 : t.size = hdrsSize (hdrs t.entries) := h.size
    have h3 := h.small
    have h4 : (hdrs t.entries).length = t.entries.length := by simp [hdrs]
    rw [h4] at h1
    generalize 128 ^ (c + 1) = X at h3 ⊢
    omega
  · rw [hf]; simp

theorem Cheap.enc {c : Nat} {t : Tab} (h : Cheap c t) (x : Hdr) : Cheap c (encTab t x) :=
  ⟨encTab_sizeOK h.size x, encTab_fits h.size x (Or.inl h.fits), by rw [encTab_max]; exact h.small⟩

theorem Cheap.index {c : Nat} {t : Tab} (h : Cheap c t) {i : Nat} (hi : i < t.entries.length) :
    (hpackInt 0x80 7 i).length ≤ c + 2 := by
  have h1 := hpackInt_len 0x80 7 i (by decide)
  have h2 := digits128_le c (i - (2 ^ 7 - 1)) (by have := h.len; omega)
  omega

theorem findIdx_lt {es : List HeaderEntry} {p : HeaderEntry → Bool} {i : Nat} (h : es.findIdx? p = some i) : i < es.length := by
  rw [List.findIdx?_eq_some_iff_findIdx_eq] at h; exact h.1

theorem Cheap.literal {c : Nat} {t : Tab} (h : Cheap c t) (flags : Nat) (x : Hdr) :
    (literalBytes flags t x).length ≤ hdrCost (c + 2) x := by
  have hi : idxPlusOne (findHeaderName t.entries x) ≤ t.entries.length := by
    cases hf : findHeaderName t.entries x with
    | none => simp [idxPlusOne]
    | some i => have := findIdx_lt hf; simp only [idxPlusOne]; omega
  have h1 := hpackInt_len flags 5 (idxPlusOne (findHeaderName t.entries x)) (by decide)
  have h2 := digits128_le c (idxPlusOne (findHeaderName t.entries x) - (2 ^ 5 - 1)) (by
    have := h.len
    have : 0 < 128 ^ (c + 1) := Nat.pow_pos (by decide)
    omega)
  have h3 : (nameBytes t x).length ≤ digits128 x.1.length + x.1.length := by
    unfold nameBytes
    split
    · simp [digits128_tail]
    · simp
  unfold literalBytes hdrCost
  simp only [List.length_append, digits128_tail]
  omega

theorem Cheap.header {c : Nat} {t : Tab} (h : Cheap c t) (x : Hdr) {w : List Nat} {t' : Tab}
    (he : encodeHeader t x = .ok (t', w)) : w.length ≤ hdrCost (c + 2) x := by
  unfold encodeHeader determineRepresentation at he
  cases hf : findHeader t.entries x with
  | some i =>
    obtain ⟨e, hei, hh⟩ := findHeader_some hf
    simp only [hf, hei, writeIndexed, bind, Except.bind, pure, Except.pure, Except.ok.injEq, Prod.mk.injEq] at he
    rw [← he.2]
    have := h.index (findIdx_lt hf)
    unfold hdrCost
    split
    · rw [List.length_append]; omega
    · omega
  | none =>
    simp only [hf] at he
    by_cases hp : x.1 = b!":path"
    · simp only [hp, if_true] at he
      rw [writeLiteral_eq (by decide)] at he
      simp only [bind, Except.bind, pure, Except.pure, Except.ok.injEq, Prod.mk.injEq] at he
      rw [← he.2]; exact h.literal _ x
    · simp only [hp, if_false] at he
      rw [writeLiteral_eq (by decide)] at he
      simp only [bind, Except.bind, pure, Except.pure, Except.ok.injEq, Prod.mk.injEq] at he
      rw [← he.2]; exact h.literal _ x

/-- Sum of what headers may cost. -/
def hdrsCost (c : Nat) (l : List Hdr) : Nat := (l.map (hdrCost (c + 2))).sum

theorem hdrsCost_cons (c : Nat) (h : Hdr) (l : List Hdr) : hdrsCost c (h :: l) = hdrCost (c + 2) h + hdrsCost c l := rfl

theorem hdrsCost_append (c : Nat) (a b : List Hdr) : hdrsCost c (a ++ b) = hdrsCost c a + hdrsCost c b := by
  simp [hdrsCost]

theorem hdrsCost_perm (c : Nat) {a b : List Hdr} (h : a.Perm b) : hdrsCost c a = hdrsCost c b := (h.map _).sum_nat

theorem hdrsCost_sublist (c : Nat) {a b : List Hdr} (h : a.Sublist b) : hdrsCost c a ≤ hdrsCost c b := by
  induction h with
  | slnil => simp
  | cons x _ ih => rw [hdrsCost_cons]; omega
  | cons_cons x _ ih => rw [hdrsCost_cons, hdrsCost_cons]; omega

theorem hdrsCost_subset (c : Nat) {a b : List Hdr} (ha : a.Nodup) (h : a ⊆ b) : hdrsCost c a ≤ hdrsCost c b := by
  obtain ⟨d, h1, h2⟩ := List.subperm_of_subset ha h
  rw [← hdrsCost_perm c h1]; exact hdrsCost_sublist c h2

theorem Cheap.list {c : Nat} (hs : List Hdr) : ∀ {t t' : Tab} {w : List Nat}, Cheap c t →
    encodeList t hs = .ok (t', w) → w.length ≤ hdrsCost c hs ∧ Cheap c t' := by
  induction hs with
  | nil => intro t t' w h he; simp only [encodeList, Except.ok.injEq, Prod.mk.injEq] at he; rw [← he.2, ← he.1]; exact ⟨by simp, h⟩
  | cons x hs ih =>
    intro t t' w h he
    obtain ⟨w1, e1, _⟩ := encodeHeader_steps t x
    obtain ⟨w2, e2, _⟩ := encodeList_steps hs (encTab t x)
    simp only [encodeList, e1, e2, bind, Except.bind, pure, Except.pure, Except.ok.injEq, Prod.mk.injEq] at he
    have a := h.header x e1
    obtain ⟨b, b'⟩ := ih (h.enc x) e2
    rw [← he.2, ← he.1, List.length_append, hdrsCost_cons]
    exact ⟨by omega, b'⟩

theorem Cheap.pass {c : Nat} (hs : List Hdr) : ∀ {t t' : Tab} {w : List Nat} {b : Bool}, Cheap c t →
    resendPass t hs = .ok (t', w, b) → w.length ≤ hdrsCost c (passTab t hs).2 ∧ Cheap c t' := by
  induction hs with
  | nil =>
    intro t t' w b h he
    simp only [resendPass, Except.ok.injEq, Prod.mk.injEq] at he; rw [← he.2.1, ← he.1]; exact ⟨by simp, h⟩
  | cons x hs ih =>
    intro t t' w b h he
    unfold resendPass at he
    unfold passTab
    cases hf : findHeader t.entries x with
    | some i => simp only [hf] at he; exact ih h he
    | none =>
      obtain ⟨w1, e1, _⟩ := encodeHeader_steps t x
      obtain ⟨w2, e2, _⟩ := resendPass_steps hs (encTab t x)
      simp only [hf, e1, e2, bind, Except.bind, pure, Except.pure, Except.ok.injEq, Prod.mk.injEq] at he
      have a := h.header x e1
      obtain ⟨q, q'⟩ := ih (h.enc x) e2
      rw [← he.2.1, ← he.1, List.length_append]
      dsimp only
      rw [hdrsCost_cons]
      exact ⟨by omega, q'⟩

theorem Cheap.loop {c : Nat} (refs : List Hdr) : ∀ (n : Nat) {t t' t2 : Tab} {w : List Nat} {l : List Hdr}, Cheap c t →
    loopTab n t refs = some (t2, l) → resendLoop n t refs = some (.ok (t', w)) →
    w.length ≤ hdrsCost c l := by
  intro n
  induction n with
  | zero => intro t t' t2 w l _ h; simp [loopTab] at h
  | succ n ih =>
    intro t t' t2 w l hc h he
    unfold loopTab at h
    unfold resendLoop at he
    by_cases hr : refs = []
    · simp only [hr, if_true, Option.some.injEq, Except.ok.injEq, Prod.mk.injEq] at he
      rw [← he.2]; simp
    · obtain ⟨w1, e1, _⟩ := resendPass_steps refs t
      obtain ⟨a, a'⟩ := hc.pass refs e1
      simp only [hr, if_false] at h he
      rw [e1] at he
      by_cases hl : (passTab t refs).2 = []
      · rw [hl] at a
        simp only [hl, List.isEmpty_nil, Bool.not_true, Option.some.injEq, Except.ok.injEq, Prod.mk.injEq] at he
        rw [← he.2]; simp [hdrsCost] at a; simp [a]
      · have hb : (!(passTab t refs).2.isEmpty) = true := by simp [hl]
        simp only [hb] at he
        simp only [hl, if_false] at h
        cases h1 : loopTab n (passTab t refs).1 refs with
        | none => rw [h1] at h; simp at h
        | some q =>
          obtain ⟨t3, l3⟩ := q
          obtain ⟨w3, e3, _⟩ := resendLoop_steps _ _ _ _ _ h1
          rw [h1] at h; rw [e3] at he
          simp only [Option.some.injEq, Except.ok.injEq, Prod.mk.injEq] at h he
          have b := ih a' h1 e3
          rw [← he.2, ← h.2, List.length_append, hdrsCost_append]
          omega

theorem Cheap.removed {c : Nat} (is : List Nat) : ∀ {t t' : Tab} {w : List Nat}, Cheap c t →
    encodeRemoved t is = .ok (t', w) → w.length ≤ (c + 2) * is.length := by
  induction is with
  | nil => intro t t' w _ he; simp only [encodeRemoved, Except.ok.injEq, Prod.mk.injEq] at he; rw [← he.2]; simp
  | cons i is ih =>
    intro t t' w h he
    unfold encodeRemoved at he
    cases hi : t.entries[i]? with
    | none => simp [hi] at he
    | some e =>
      simp only [hi, writeIndexed, bind, Except.bind] at he
      have hlt : i < t.entries.length := (List.getElem?_eq_some_iff.1 hi).1
      have h2 : Cheap c { t with entries := t.entries.set i { e with referenced := false, emitted := false } } := by
        have hh : hdrs (t.entries.set i { e with referenced := false, emitted := false }) = hdrs t.entries := hdrs_set hi rfl
        refine ⟨?_, ?_, h.small⟩
        · unfold SizeOK; dsimp only; rw [hh]; exact h.size
        · rcases h.fits with hf | hf
          · exact Or.inl hf
          · rw [hf] at hlt; simp at hlt
      split at he
      · cases he
      · rename_i q hq
        obtain ⟨t3, w3⟩ := q
        simp only [pure, Except.pure, Except.ok.injEq, Prod.mk.injEq] at he
        have := ih h2 hq
        have := h.index hlt
        rw [← he.2, List.length_append, List.length_cons, Nat.mul_succ]
        omega

theorem removed_count {t : Tab} (hn : (hdrs t.entries).Nodup) (hs : List Hdr) :
    (computeDiff t.entries hs).removed.length =
      (t.entries.filter fun e => e.referenced && decide (e.header ∉ hs)).length := by
  have hd := diff_inv hn hs
  have hkey : ∀ e ∈ t.entries, e.referenced = true → (e.header ∈ keptRefs t hs ↔ e.header ∈ hs) := by
    intro e he hr
    constructor
    · intro h; exact hd.perm.subset (List.mem_append_left _ h)
    · intro h
      rcases List.mem_append.1 (hd.perm.symm.subset h) with h1 | h1
      · exact h1
      · exact hd.rems _ h1 ⟨e, he, rfl, hr⟩
  have gen : ∀ (es : List HeaderEntry) (k : Nat), (removedFrom k es).length =
      (es.filter fun e => e.referenced && !e.emitted).length := by
    intro es
    induction es with
    | nil => intro k; rfl
    | cons e es ih =>
      intro k
      rw [removedFrom, List.filter_cons]
      split <;> simp [ih]
  unfold computeDiff
  dsimp only
  rw [gen, hd.table]
  unfold mark
  rw [List.filter_map, List.length_map]
  congr 1
  apply List.filter_congr
  intro e he
  simp only [Function.comp_apply]
  cases hr : e.referenced with
  | false => simp
  | true =>
    have : e.header ∈ (hs.foldl diffMark (resetEmitted t.entries, [], [])).2.1 ↔ e.header ∈ hs := hkey e he hr
    simp only [Bool.true_and]
    by_cases hm : e.header ∈ hs
    · simp [hm, this.2 hm]
    · have h2 : e.header ∉ (hs.foldl diffMark (resetEmitted t.entries, [], [])).2.1 := fun h => hm (this.1 h)
      simp [hm, h2]

/-- The size of the payload of a message. -/
theorem payload_le {c : Nat} {t t' : Tab} {fuel : Nat} {hs : List Hdr} {w : List Nat} (hc : Cheap c t)
    (hn : (hdrs t.entries).Nodup) (h : encodeBody fuel t hs = some (.ok (t', w))) :
    w.length ≤ (c + 2) * (t.entries.filter fun e => e.referenced && decide (e.header ∉ hs)).length +
      hdrsCost c hs := by
  cases hl : loopTab fuel (sentTab t hs) (keptRefs t hs) with
  | none =>
    have := (encodeBody_none hn fuel hs).2 hl
    rw [this] at h; cases h
  | some q =>
  obtain ⟨t2, l⟩ := q
  obtain ⟨w1, e1, s1⟩ := encodeRemoved_steps (computeDiff t.entries hs).removed (startTab t hs)
    (by unfold computeDiff; exact removedFrom_nodup _ _) (removed_valid hn hs)
  obtain ⟨w2, e2, s2⟩ := encodeList_steps (toSend t hs) (removedTab t hs)
  obtain ⟨w3, e3, s3⟩ := resendLoop_steps _ _ _ _ _ hl
  have hw : w = w1 ++ w2 ++ w3 := by
    unfold encodeBody at h
    dsimp only at h
    change encodeRemoved { t with entries := updateTable (computeDiff t.entries hs).entries } _ = _ at e1
    rw [e1] at h; dsimp only at h
    change encodeList ((computeDiff t.entries hs).removed.foldl unref (startTab t hs)) (computeDiff t.entries hs).remaining = _ at e2
    rw [e2] at h; dsimp only at h
    change resendLoop fuel ((toSend t hs).foldl encTab (removedTab t hs)) (computeDiff t.entries hs).referenced = _ at e3
    rw [e3] at h
    simp only [Option.some.injEq, Except.ok.injEq, Prod.mk.injEq] at h
    exact h.2.symm
  have hf0 : ∀ t2 : Tab, hdrs t2.entries = hdrs t.entries → t2.size = t.size → t2.max = t.max → Cheap c t2 := by
    intro t2 a1 a2 a3
    refine ⟨?_, ?_, by rw [a3]; exact hc.small⟩
    · unfold SizeOK; rw [a2, a1]; exact hc.size
    · rcases hc.fits with hf | hf
      · left; rw [a2, a3]; exact hf
      · right; rw [hf] at a1; simpa [hdrs] using a1
  have c0 := hf0 (startTab t hs) (hdrs_startTab hn hs) rfl rfl
  have c1 := hf0 (removedTab t hs) (removedTab_hdrs hn hs) (removedTab_size t hs) (removedTab_max t hs)
  have b1 := c0.removed _ e1
  obtain ⟨b2, c2⟩ := c1.list _ e2
  have b3 := c2.loop _ _ hl e3
  obtain ⟨k1, k2, _⟩ := keptRefs_spec hn hs
  obtain ⟨i1, i2, _, _⟩ := sentTab_inv hc.size hn hs
  have hnd := loopTab_nodup k1 i1 i2 hl
  have hsub := (loopTab_sub _ _ _ _ _ hl).1
  have b4 := hdrsCost_subset c hnd hsub
  have b5 := hdrsCost_perm c k2
  rw [hdrsCost_append] at b5
  rw [← removed_count hn, hw, List.length_append, List.length_append]
  omega

/-! ### Messages that cost nothing -/

/-- The reference set of the table is exactly the headers of `hs`. -/
def RefsAre (t : Tab) (hs : List Hdr) : Prop :=
  ∀ h, h ∈ hs ↔ ∃ e ∈ t.entries, e.referenced = true ∧ e.header = h

theorem resendPass_found (hs : List Hdr) (t : Tab) (h : ∀ x ∈ hs, x ∈ hdrs t.entries) :
    resendPass t hs = .ok (t, [], false) := by
  induction hs with
  | nil => rfl
  | cons x hs ih =>
    unfold resendPass
    cases hf : findHeader t.entries x with
    | none => exact absurd (h x (by simp)) (findHeader_none'.1 hf)
    | some i => exact ih (fun y hy => h y (by simp [hy]))

theorem resendLoop_found (hs : List Hdr) (t : Tab) (h : ∀ x ∈ hs, x ∈ hdrs t.entries) (n : Nat) :
    resendLoop (n + 1) t hs = some (.ok (t, [])) := by
  unfold resendLoop
  split
  · rfl
  · rw [resendPass_found hs t h]

theorem free_message {t : Tab} (hn : (hdrs t.entries).Nodup) {hs : List Hdr} (hnd : hs.Nodup) (hr : RefsAre t hs) (n : Nat) :
    encodeBody (n + 1) t hs = some (.ok (startTab t hs, [])) := by
  have hd := diff_inv hn hs
  have hrem : (computeDiff t.entries hs).removed = [] := by
    rw [← List.length_eq_zero_iff, removed_count hn, List.length_eq_zero_iff, List.filter_eq_nil_iff]
    intro e he hc
    simp only [Bool.and_eq_true, decide_eq_true_eq] at hc
    exact hc.2 ((hr _).2 ⟨e, he, hc.1, rfl⟩)
  have hsend : (computeDiff t.entries hs).remaining = [] := by
    rw [List.eq_nil_iff_forall_not_mem]
    intro x hx
    have hx' : x ∈ (hs.foldl diffMark (resetEmitted t.entries, [], [])).2.2 := hx
    have h1 : x ∈ hs := hd.perm.subset (List.mem_append_right _ hx')
    obtain ⟨e, he, h2, h3⟩ := (hr x).1 h1
    have h4 := hd.rems x hx' ⟨e, he, h3, h2⟩
    exact (List.nodup_append.1 (hd.perm.symm.nodup hnd)).2.2 _ h4 _ hx' rfl
  unfold encodeBody
  dsimp only
  rw [hrem, hsend]
  have hall : ∀ x ∈ (computeDiff t.entries hs).referenced, x ∈ hdrs (startTab t hs).entries := by
    intro x hx
    obtain ⟨e, he, hh, _⟩ := (keptRefs_spec hn hs).2.2 x hx
    rw [hdrs_startTab hn]
    exact mem_hdrs.2 ⟨e, he, hh⟩
  have := resendLoop_found _ _ hall n
  unfold startTab at this ⊢
  simp only [encodeRemoved, encodeList, this, List.append_nil]

theorem startTab_refs {t : Tab} (hn : (hdrs t.entries).Nodup) {hs m : List Hdr} (hr : RefsAre t hs) :
    RefsAre (startTab t m) hs := by
  intro h
  rw [hr h]
  constructor
  · rintro ⟨e, he, h1, h2⟩
    obtain ⟨i, hi⟩ := List.mem_iff_getElem?.1 he
    have := diff_getElem? hn m i
    rw [hi] at this
    exact ⟨_, List.mem_of_getElem? this, h1, h2⟩
  · rintro ⟨e, he, h1, h2⟩
    obtain ⟨i, hi⟩ := List.mem_iff_getElem?.1 he
    rw [diff_getElem? hn m i] at hi
    cases h0 : t.entries[i]? with
    | none => rw [h0] at hi; simp at hi
    | some e0 =>
      rw [h0] at hi
      simp only [Option.map_some, Option.some.injEq] at hi
      subst hi
      exact ⟨e0, List.mem_of_getElem? h0, h1, h2⟩

/-- The frame with nothing in it. -/
theorem frame_nil : frame [] = .ok [0, 0, 0, 0, 0, 0, 0, 0] := rfl

theorem free_messages {hs : List Hdr} (ms : List (List Hdr)) : ∀ {t : Tab}, (hdrs t.entries).Nodup → RefsAre t hs →
    (∀ m ∈ ms, m.Nodup ∧ SameSet m hs) → ∀ n, ∃ t', encodeAll (n + 1) t ms =
      some (.ok (t', ms.map fun _ => [0, 0, 0, 0, 0, 0, 0, 0])) := by
  induction ms with
  | nil => intro t _ _ _ n; exact ⟨t, rfl⟩
  | cons m ms ih =>
    intro t hn hr hm n
    obtain ⟨h1, h2⟩ := hm m (by simp)
    have hrm : RefsAre t m := fun h => (h2 h).trans (hr h)
    obtain ⟨t', h'⟩ := ih (t := startTab t m) (by rw [hdrs_startTab hn]; exact hn) (startTab_refs hn hr)
      (fun x hx => hm x (by simp [hx])) n
    refine ⟨t', ?_⟩
    simp only [encodeAll, encodeHeaders, free_message hn h1 hrm n, frame_nil, h', List.map_cons]

theorem free_only {t t' : Tab} (hsz : SizeOK t) (hn : (hdrs t.entries).Nodup) {hs : List Hdr} {fuel : Nat}
    (h : encodeBody fuel t hs = some (.ok (t', []))) : RefsAre t hs := by
  have h' : encodeHeaders fuel t hs = some (t', frame []) := by simp [encodeHeaders, h]
  obtain ⟨l, w, hl, hb, _, hst⟩ := encodeHeaders_cases hn h'
  rw [h] at hb
  simp only [Option.some.injEq, Except.ok.injEq, Prod.mk.injEq, true_and] at hb
  subst hb
  obtain ⟨_, _, h3, _⟩ := message_output hsz hn hl
  have hrem : remainingHeaders (erase t').entries = remainingHeaders t'.entries := by
    simp [remainingHeaders, erase, List.filter_map, Function.comp_def]
  generalize hx : toSend t hs ++ l = x at hst h3
  generalize hy : erase t' = y at hst hrem
  cases hst
  rw [← hrem] at h3
  intro z
  rw [← h3 z]
  simp only [List.nil_append, remainingHeaders, resetEmitted, erase, List.mem_map, List.mem_filter]
  constructor
  · rintro ⟨e, ⟨⟨e2, ⟨e3, h3, rfl⟩, rfl⟩, h5⟩, h6⟩
    exact ⟨e3, h3, by simpa [erase1] using h5, by simpa [erase1] using h6⟩
  · rintro ⟨e, he, h1, h2⟩
    exact ⟨_, ⟨⟨_, ⟨e, he, rfl⟩, rfl⟩, by simp [erase1, h1]⟩, by simp [erase1, h2]⟩

/-! ### Nothing evicted -/

theorem evict_none {max need size : Int} {es : List HeaderEntry} (h : size + need ≤ max) :
    evict max need size es = (size, es) := by
  cases es with
  | nil => rfl
  | cons e es => unfold evict; rw [if_neg (by omega)]

theorem appendHeader_roomy {t : Tab} {e : HeaderEntry} (h : t.size + hdrSize e.header ≤ t.max) :
    appendHeader t e = { t with entries := t.entries ++ [e], size := t.size + hdrSize e.header } := by
  have h' : t.size + (entryLen e.header : Int) ≤ t.max := h
  unfold appendHeader
  simp only [evict_none h', h', if_true]
  rfl

/-- `b` has every entry of `a`, no reference lost. -/
def Grows (a b : Tab) : Prop :=
  ∀ e ∈ a.entries, ∃ e' ∈ b.entries, e'.header = e.header ∧ (e.referenced = true → e'.referenced = true)

theorem encTab_roomy {t : Tab} {h : Hdr} (hroom : t.size + hdrSize h ≤ t.max)
    (hp : h.1 ≠ b!":path" ∨ h ∈ hdrs t.entries) :
    Grows t (encTab t h) ∧ (∃ e ∈ (encTab t h).entries, e.referenced = true ∧ e.header = h) ∧
    (encTab t h).size ≤ t.size + hdrSize h := by
  unfold encTab
  cases hf : findHeader t.entries h with
  | some i =>
    obtain ⟨e, he, hh⟩ := findHeader_some hf
    have hlt : i < t.entries.length := (List.getElem?_eq_some_iff.1 he).1
    simp only [he]
    refine ⟨?_, ⟨_, List.mem_set hlt _, rfl, hh⟩, by omega⟩
    intro x hx
    obtain ⟨j, hj⟩ := List.mem_iff_getElem?.1 hx
    by_cases hij : i = j
    · subst hij
      rw [he] at hj; cases hj
      exact ⟨_, List.mem_set hlt _, rfl, fun _ => rfl⟩
    · exact ⟨x, List.mem_of_getElem? (i := j) (by simp [hij, hj]), rfl, id⟩
  | none =>
    have : h.1 ≠ b!":path" := by
      rcases hp with hp | hp
      · exact hp
      · exact absurd hp (findHeader_none'.1 hf)
    simp only [this, if_false]
    rw [appendHeader_roomy (e := { header := h, referenced := true, emitted := true }) hroom]
    exact ⟨fun e he => ⟨e, by simp [he], rfl, id⟩, ⟨_, by simp; exact Or.inr rfl, rfl, rfl⟩, le_refl _⟩

theorem Grows.trans {a b c : Tab} (h1 : Grows a b) (h2 : Grows b c) : Grows a c := by
  intro e he
  obtain ⟨e1, a1, a2, a3⟩ := h1 e he
  obtain ⟨e2, b1, b2, b3⟩ := h2 e1 a1
  exact ⟨e2, b1, b2.trans a2, fun h => b3 (a3 h)⟩

theorem foldl_roomy (l : List Hdr) : ∀ {t : Tab}, t.size + hdrsSize l ≤ t.max →
    (∀ h ∈ l, h.1 ≠ b!":path" ∨ h ∈ hdrs t.entries) →
    Grows t (l.foldl encTab t) ∧ ∀ h ∈ l, ∃ e ∈ (l.foldl encTab t).entries, e.referenced = true ∧ e.header = h := by
  induction l with
  | nil => intro t _ _; exact ⟨fun e he => ⟨e, he, rfl, id⟩, by simp⟩
  | cons x l ih =>
    intro t hroom hp
    have hc : (hdrsSize (x :: l) : Int) = hdrSize x + hdrsSize l := by simp [hdrsSize]
    obtain ⟨g, ⟨e, he, hr, hh⟩, hsz⟩ := encTab_roomy (t := t) (h := x) (by omega) (hp x (by simp))
    obtain ⟨g2, h2⟩ := ih (t := encTab t x) (by rw [encTab_max]; omega) (by
      intro h hh
      rcases hp h (by simp [hh]) with h1 | h1
      · exact Or.inl h1
      · right
        obtain ⟨e1, he1, h1'⟩ := mem_hdrs.1 h1
        obtain ⟨e2, b1, b2, _⟩ := g e1 he1
        exact mem_hdrs.2 ⟨e2, b1, b2.trans h1'⟩)
    refine ⟨g.trans g2, ?_⟩
    intro h hm
    rcases List.mem_cons.1 hm with rfl | hm
    · obtain ⟨e2, b1, b2, b3⟩ := g2 e he
      exact ⟨e2, b1, b3 hr, b2.trans hh⟩
    · exact h2 h hm

theorem refs_after {t t' : Tab} (hsz : SizeOK t) (hn : (hdrs t.entries).Nodup) {hs : List Hdr} {fuel : Nat}
    {r : Py (List Nat)} (hroom : t.size + hdrsSize hs ≤ t.max)
    (hp : ∀ h ∈ hs, h.1 ≠ b!":path" ∨ h ∈ hdrs t.entries)
    (h : encodeHeaders fuel t hs = some (t', r)) : RefsAre t' hs ∧ (hdrs t'.entries).Nodup := by
  obtain ⟨l, w, hl, _, _, _⟩ := encodeHeaders_cases hn h
  obtain ⟨_, hn', _⟩ := message_output hsz hn hl
  refine ⟨?_, hn'⟩
  obtain ⟨k1, k2, k3⟩ := keptRefs_spec hn hs
  have hsum := hdrsSize_perm k2
  have happ : hdrsSize (keptRefs t hs ++ toSend t hs) = hdrsSize (keptRefs t hs) + hdrsSize (toSend t hs) := by
    simp [hdrsSize]
  obtain ⟨g, hsent⟩ := foldl_roomy (toSend t hs) (t := removedTab t hs)
    (by rw [removedTab_size, removedTab_max]; omega)
    (by
      intro x hx
      rw [removedTab_hdrs hn]
      exact hp x (k2.subset (List.mem_append_right _ hx)))
  have hinv0 := removedTab_inv hsz hn hs
  have hinv1 : Inv (keptRefs t hs) (toSend t hs) (sentTab t hs) := hinv0.foldl (toSend t hs)
  have hkept : ∀ x ∈ keptRefs t hs, x ∈ hdrs (sentTab t hs).entries := by
    intro x hx
    obtain ⟨e, he, hh, _⟩ := k3 x hx
    have : x ∈ hdrs (removedTab t hs).entries := by rw [removedTab_hdrs hn]; exact mem_hdrs.2 ⟨e, he, hh⟩
    obtain ⟨e1, he1, hh1⟩ := mem_hdrs.1 this
    obtain ⟨e2, b1, b2, _⟩ := g e1 he1
    exact mem_hdrs.2 ⟨e2, b1, b2.trans hh1⟩
  have ht' : t' = sentTab t hs := by
    cases fuel with
    | zero => simp [loopTab] at hl
    | succ n =>
      obtain ⟨w3, e3, _⟩ := resendLoop_steps _ _ _ _ _ hl
      rw [resendLoop_found _ _ hkept n] at e3
      simp only [Option.some.injEq, Except.ok.injEq, Prod.mk.injEq] at e3
      exact e3.1.symm
  subst ht'
  intro x
  constructor
  · intro hx
    rcases List.mem_append.1 (k2.symm.subset hx) with h1 | h1
    · obtain ⟨e, he, hh⟩ := mem_hdrs.1 (hkept x h1)
      exact ⟨e, he, hinv1.kept e he (hh ▸ h1), hh⟩
    · exact hsent x h1
  · rintro ⟨e, he, hr, rfl⟩
    apply k2.subset
    by_cases hm : e.emitted = true
    · exact List.mem_append_right _ (hinv1.sent e he hm)
    · exact List.mem_append_left _ (hinv1.silent e he hr (by simpa using hm))

end Verif.Http2
