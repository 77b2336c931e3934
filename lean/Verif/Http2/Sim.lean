import Verif.Http2.IntLemmas
/- The decoder follows the encoder step by step. -/
namespace Verif.Http2
open Verif Spec

/-- The decoder does not track ages. -/
def erase1 (e : HeaderEntry) : HeaderEntry := { e with age := 0 }

def erase (t : Tab) : Tab := { t with entries := t.entries.map erase1 }

@[simp] theorem erase1_header (e) : (erase1 e).header = e.header := rfl
@[simp] theorem erase1_referenced (e) : (erase1 e).referenced = e.referenced := rfl
@[simp] theorem erase1_emitted (e) : (erase1 e).emitted = e.emitted := rfl

/-- `w` is a sequence of whole representations taking the decoder from `t` to `t'`,
emitting `out`. -/
inductive Steps : Tab → List Nat → Tab → List Hdr → Prop
  | nil (t) : Steps t [] t []
  | cons {t b w0 t1 out1 w2 t2 out2} :
      (∀ rest, decodeStep t b (w0 ++ rest) = .ok ⟨t1, out1, rest⟩) →
      Steps t1 w2 t2 out2 → Steps t (b :: (w0 ++ w2)) t2 (out1 ++ out2)

theorem Steps.one {t b w0 t1 out1}
    (h : ∀ rest, decodeStep t b (w0 ++ rest) = .ok ⟨t1, out1, rest⟩) :
    Steps t (b :: w0) t1 out1 := by
  have := Steps.cons h (Steps.nil t1)
  simpa using this

theorem Steps.append {t w1 t1 out1 w2 t2 out2} (h1 : Steps t w1 t1 out1)
    (h2 : Steps t1 w2 t2 out2) : Steps t (w1 ++ w2) t2 (out1 ++ out2) := by
  induction h1 with
  | nil => simpa using h2
  | cons hstep _ ih =>
    have := Steps.cons hstep (ih h2)
    simpa [List.append_assoc] using this

theorem Steps.run {t w t' out} (h : Steps t w t' out) : ∀ fuel hs rest,
    (w ++ rest).length ≤ fuel →
    ∃ fuel', rest.length ≤ fuel' ∧
      decodeLoop fuel t hs (w ++ rest) = decodeLoop fuel' t' (hs ++ out) rest := by
  induction h with
  | nil => intro fuel hs rest hf; exact ⟨fuel, by simpa using hf, by simp⟩
  | @cons t b w0 t1 out1 w2 t2 out2 hstep _ ih =>
    intro fuel hs rest hf
    cases fuel with
    | zero => simp at hf
    | succ fuel =>
      have hf' : (w2 ++ rest).length ≤ fuel := by simp at hf ⊢; omega
      obtain ⟨fuel', h1, h2⟩ := ih fuel (hs ++ out1) rest hf'
      refine ⟨fuel', h1, ?_⟩
      have := hstep (w2 ++ rest)
      simp only [List.cons_append, List.append_assoc, decodeLoop]
      rw [this]
      simpa [List.append_assoc] using h2

/-- Decoding exactly `w` from the start. -/
theorem Steps.decode {t w t' out} (h : Steps t w t' out) :
    decodeLoop w.length t [] w = (t', .ok out) := by
  obtain ⟨f, _, h2⟩ := h.run w.length [] [] (by simp)
  simp only [List.append_nil, List.nil_append] at h2
  rw [h2]; cases f <;> simp [decodeLoop]

/-! ### Bit tests -/

theorem dec_ge80 : ∀ b, b < 256 → 128 ≤ b → (b &&& 0x80) ≠ 0 := by decide +kernel

theorem dec_60 : ∀ b, b < 128 → 96 ≤ b →
    (b &&& 0x80) = 0 ∧ (b &&& 0xC0) ≠ 0 ∧ (b &&& 0xE0) = 0x60 := by decide +kernel

theorem dec_40 : ∀ b, b < 96 → 64 ≤ b →
    (b &&& 0x80) = 0 ∧ (b &&& 0xC0) ≠ 0 ∧ (b &&& 0xE0) = 0x40 := by decide +kernel

/-! ### Indexed -/

theorem writeIndexed (i : Nat) : writeInteger 0x80 7 i = .ok (hpackInt 0x80 7 i) :=
  writeInteger_eq (by decide) (by decide)

theorem decodeIndexed_step (t : Tab) (i : Nat) :
    ∃ b w, hpackInt 0x80 7 i = b :: w ∧ ∀ rest,
      decodeStep t b (w ++ rest) =
        match t.entries[i]? with
        | none => .error .index
        | some entry =>
          if entry.referenced then
            .ok ⟨{ t with entries := t.entries.set i { entry with referenced := false, emitted := false } }, [], rest⟩
          else
            .ok ⟨{ t with entries := t.entries.set i { entry with referenced := true, emitted := true } },
              [entry.header], rest⟩ := by
  obtain ⟨b, w, hw, h1, h2, _⟩ := readInteger_pos (flags := 0x80) (p := 7) (v := i)
    (by decide) (by decide) (by decide) []
  refine ⟨b, w, hw, fun rest => ?_⟩
  obtain ⟨b', w', hw', _, _, h3⟩ := readInteger_pos (flags := 0x80) (p := 7) (v := i)
    (by decide) (by decide) (by decide) rest
  rw [hw] at hw'
  obtain ⟨rfl, rfl⟩ := List.cons.inj hw'
  have hb : b &&& 0x80 ≠ 0 := dec_ge80 b (by omega) (by omega)
  unfold decodeStep decodeIndexed
  rw [if_pos hb, h3]
  simp only [bind, Except.bind]
  cases t.entries[i]? with
  | none => rfl
  | some entry => cases hr : entry.referenced <;> simp [hr, pure, Except.pure]

theorem steps_toggle_off {t : Tab} {i : Nat} {e : HeaderEntry} (h : t.entries[i]? = some e)
    (hr : e.referenced = true) :
    Steps (erase t) (hpackInt 0x80 7 i)
      (erase { t with entries := t.entries.set i { e with referenced := false, emitted := false } }) [] := by
  obtain ⟨b, w, hw, hstep⟩ := decodeIndexed_step (erase t) i
  rw [hw]
  refine Steps.one fun rest => ?_
  rw [hstep rest]
  have : (erase t).entries[i]? = some (erase1 e) := by simp [erase, h]
  rw [this]
  simp [hr, erase, List.map_set, erase1]

theorem steps_toggle_on {t : Tab} {i : Nat} {e : HeaderEntry} (h : t.entries[i]? = some e)
    (hr : e.referenced = false) :
    Steps (erase t) (hpackInt 0x80 7 i)
      (erase { t with entries := t.entries.set i { e with referenced := true, emitted := true } })
      [e.header] := by
  obtain ⟨b, w, hw, hstep⟩ := decodeIndexed_step (erase t) i
  rw [hw]
  refine Steps.one fun rest => ?_
  rw [hstep rest]
  have : (erase t).entries[i]? = some (erase1 e) := by simp [erase, h]
  rw [this]
  simp [hr, erase, List.map_set, erase1]

/-! ### Literals -/

/-- The bytes of a literal's name. -/
def nameBytes (t : Tab) (h : Hdr) : List Nat :=
  match findHeaderName t.entries h with
  | none => hpackTail h.1.length ++ h.1
  | some _ => []

/-- The bytes of a literal. -/
def literalBytes (flags : Nat) (t : Tab) (h : Hdr) : List Nat :=
  hpackInt flags 5 (idxPlusOne (findHeaderName t.entries h)) ++
  nameBytes t h ++
  (hpackTail h.2.length ++ h.2)

theorem writeLiteral_eq {flags : Nat} (hf : flags + 31 < 256) (t : Tab) (h : Hdr) :
    writeLiteral flags t h = .ok (literalBytes flags t h) := by
  unfold writeLiteral literalBytes nameBytes
  simp only [writeInteger_eq (flags := flags) (p := 5) (by decide) (by simpa using hf),
    writeLiteralString_eq, bind, Except.bind, pure, Except.pure]
  cases findHeaderName t.entries h <;> simp

theorem findHeaderName_some {es : List HeaderEntry} {h : Hdr} {i : Nat}
    (hi : findHeaderName es h = some i) : ∃ e, es[i]? = some e ∧ e.header.1 = h.1 := by
  unfold findHeaderName at hi
  rw [List.findIdx?_eq_some_iff_getElem] at hi
  obtain ⟨hlt, h1, _⟩ := hi
  refine ⟨es[i], by simp [hlt], ?_⟩
  simp at h1; exact h1.symm

theorem findHeader_some {es : List HeaderEntry} {h : Hdr} {i : Nat}
    (hi : findHeader es h = some i) : ∃ e, es[i]? = some e ∧ e.header = h := by
  unfold findHeader at hi
  rw [List.findIdx?_eq_some_iff_getElem] at hi
  obtain ⟨hlt, h1, _⟩ := hi
  refine ⟨es[i], by simp [hlt], ?_⟩
  simp at h1; exact h1.symm

theorem findHeader_none {es : List HeaderEntry} {h : Hdr} :
    findHeader es h = none ↔ ∀ e ∈ es, e.header ≠ h := by
  unfold findHeader
  rw [List.findIdx?_eq_none_iff]
  simp only [beq_eq_false_iff_ne, ne_eq]
  constructor
  · intro h1 e he h2; exact h1 e he h2.symm
  · intro h1 e he h2; exact h1 e he h2.symm

/-- Name resolution of a literal by the decoder. -/
theorem decodeName_eq (t : Tab) (h : Hdr) (rest : List Nat) :
    decodeName (erase t) (idxPlusOne (findHeaderName t.entries h))
      (nameBytes t h ++ rest) = .ok (h.1, rest) := by
  unfold nameBytes
  cases hn : findHeaderName t.entries h with
  | none => simp only [idxPlusOne, decodeName, if_true]; exact readLiteralString_eq _ _
  | some i =>
    obtain ⟨e, he, hname⟩ := findHeaderName_some hn
    have : (erase t).entries[i]? = some (erase1 e) := by simp [erase, he]
    simp [idxPlusOne, decodeName, this, hname]

theorem literal_split (flags : Nat) (hflag : flags % 32 = 0) (t : Tab) (h : Hdr) :
    ∃ b w, literalBytes flags t h = b :: w ∧ flags ≤ b ∧ b ≤ flags + 31 ∧ ∀ rest,
      ∃ r1, readInteger b 5 (w ++ rest) = .ok (idxPlusOne (findHeaderName t.entries h), r1) ∧
        ∃ r2, decodeName (erase t) (idxPlusOne (findHeaderName t.entries h)) r1 = .ok (h.1, r2) ∧
          readLiteralString r2 = .ok (h.2, rest) := by
  obtain ⟨b, w, hw, h1, h2, _⟩ := readInteger_pos (flags := flags) (p := 5)
    (v := idxPlusOne (findHeaderName t.entries h)) (by decide) (by decide) (by simpa using hflag) []
  refine ⟨b, w ++ (nameBytes t h ++ (hpackTail h.2.length ++ h.2)), ?_, h1, by simpa using h2, ?_⟩
  · unfold literalBytes; rw [hw]; simp
  · intro rest
    refine ⟨nameBytes t h ++ ((hpackTail h.2.length ++ h.2) ++ rest), ?_,
      (hpackTail h.2.length ++ h.2) ++ rest, decodeName_eq t h _, readLiteralString_eq _ _⟩
    obtain ⟨b', w', hw', _, _, h3⟩ := readInteger_pos (flags := flags) (p := 5)
      (v := idxPlusOne (findHeaderName t.entries h)) (by decide) (by decide) (by simpa using hflag)
      (nameBytes t h ++ ((hpackTail h.2.length ++ h.2) ++ rest))
    rw [hw] at hw'
    obtain ⟨rfl, rfl⟩ := List.cons.inj hw'
    rw [← h3]; simp only [List.append_assoc]

theorem steps_notIndexed (t : Tab) (h : Hdr) :
    Steps (erase t) (literalBytes 0x60 t h) (erase t) [h] := by
  obtain ⟨b, w, hw, h1, h2, hr⟩ := literal_split 0x60 (by decide) t h
  rw [hw]
  refine Steps.one fun rest => ?_
  obtain ⟨r1, e1, r2, e2, e3⟩ := hr rest
  obtain ⟨a1, a2, a3⟩ := dec_60 b (by omega) (by omega)
  unfold decodeStep decodeLiteral
  simp [a1, a2, a3, e1, e2, e3, bind, Except.bind, pure, Except.pure]

theorem evict_erase (max need : Int) (es : List HeaderEntry) : ∀ size,
    evict max need size (es.map erase1) =
      ((evict max need size es).1, (evict max need size es).2.map erase1) := by
  induction es with
  | nil => intro size; simp [evict]
  | cons e es ih =>
    intro size
    simp only [List.map_cons, evict, erase1_header]
    split
    · exact ih _
    · simp

theorem appendHeader_erase (t : Tab) (e : HeaderEntry) :
    appendHeader (erase t) (erase1 e) = erase (appendHeader t e) := by
  unfold appendHeader
  simp only [erase, erase1_header, evict_erase]
  split <;> simp

theorem steps_incremental (t : Tab) (h : Hdr) :
    Steps (erase t) (literalBytes 0x40 t h)
      (erase (appendHeader t { header := h, referenced := true, emitted := true })) [h] := by
  obtain ⟨b, w, hw, h1, h2, hr⟩ := literal_split 0x40 (by decide) t h
  rw [hw]
  refine Steps.one fun rest => ?_
  obtain ⟨r1, e1, r2, e2, e3⟩ := hr rest
  obtain ⟨a1, a2, a3⟩ := dec_40 b (by omega) (by omega)
  unfold decodeStep decodeLiteral
  rw [← appendHeader_erase]
  simp [a1, a2, a3, e1, e2, e3, bind, Except.bind, pure, Except.pure, erase1]

/-! ### Encoder functions never raise; effect of each on the decoder -/

/-- Table after encoding one header. -/
def encTab (t : Tab) (h : Hdr) : Tab :=
  match findHeader t.entries h with
  | some i =>
    match t.entries[i]? with
    | none => t
    | some e => { t with entries := t.entries.set i { e with referenced := true, emitted := true } }
  | none =>
    if h.1 = b!":path" then t
    else appendHeader t { header := h, referenced := true, emitted := true }

theorem encodeHeader_steps (t : Tab) (h : Hdr) :
    ∃ w, encodeHeader t h = .ok (encTab t h, w) ∧ Steps (erase t) w (erase (encTab t h)) [h] := by
  unfold encodeHeader determineRepresentation encTab
  cases hf : findHeader t.entries h with
  | some i =>
    obtain ⟨e, he, hh⟩ := findHeader_some hf
    simp only [he, writeIndexed, bind, Except.bind, pure, Except.pure]
    refine ⟨_, rfl, ?_⟩
    cases hr : e.referenced with
    | false =>
      have := steps_toggle_on he hr
      simpa [hh] using this
    | true =>
      have s1 := steps_toggle_off he hr
      have hi : ({ t with entries := t.entries.set i { e with referenced := false, emitted := false } } : Tab).entries[i]?
          = some { e with referenced := false, emitted := false } := by
        have : i < t.entries.length := by
          rw [List.getElem?_eq_some_iff] at he; exact he.1
        simp [this]
      have s2 := steps_toggle_on hi rfl
      have := s1.append s2
      simp only [List.set_set, List.nil_append] at this
      simpa [hh] using this
  | none =>
    by_cases hp : h.1 = b!":path"
    · simp only [hp, if_true]
      rw [writeLiteral_eq (by decide)]
      exact ⟨_, rfl, steps_notIndexed t h⟩
    · simp only [hp, if_false]
      rw [writeLiteral_eq (by decide)]
      exact ⟨_, rfl, steps_incremental t h⟩

theorem encodeList_steps (hs : List Hdr) : ∀ t,
    ∃ w, encodeList t hs = .ok (hs.foldl encTab t, w) ∧
      Steps (erase t) w (erase (hs.foldl encTab t)) hs := by
  induction hs with
  | nil => intro t; exact ⟨[], rfl, Steps.nil _⟩
  | cons h hs ih =>
    intro t
    obtain ⟨w1, e1, s1⟩ := encodeHeader_steps t h
    obtain ⟨w2, e2, s2⟩ := ih (encTab t h)
    refine ⟨w1 ++ w2, ?_, ?_⟩
    · simp [encodeList, e1, e2, bind, Except.bind, pure, Except.pure]
    · simpa using s1.append s2

/-- Unreference entry `i`. -/
def unref (t : Tab) (i : Nat) : Tab :=
  match t.entries[i]? with
  | none => t
  | some e => { t with entries := t.entries.set i { e with referenced := false, emitted := false } }

theorem unref_getElem? {t : Tab} {i j : Nat} (h : i ≠ j) :
    (unref t i).entries[j]? = t.entries[j]? := by
  unfold unref
  split
  · rfl
  · simp [h]

theorem encodeRemoved_steps (is : List Nat) : ∀ t : Tab, is.Nodup →
    (∀ i ∈ is, ∃ e, t.entries[i]? = some e ∧ e.referenced = true) →
    ∃ w, encodeRemoved t is = .ok (is.foldl unref t, w) ∧
      Steps (erase t) w (erase (is.foldl unref t)) [] := by
  induction is with
  | nil => intro t _ _; exact ⟨[], rfl, Steps.nil _⟩
  | cons i is ih =>
    intro t hnd hall
    obtain ⟨e, he, hr⟩ := hall i (by simp)
    have hnd' := List.nodup_cons.1 hnd
    have hu : unref t i =
        { t with entries := t.entries.set i { e with referenced := false, emitted := false } } := by
      unfold unref; rw [he]
    obtain ⟨w2, e2, s2⟩ := ih (unref t i) hnd'.2 (by
      intro j hj
      have hij : i ≠ j := by rintro rfl; exact hnd'.1 hj
      rw [unref_getElem? hij]
      exact hall j (by simp [hj]))
    have s1 := steps_toggle_off he hr
    rw [← hu] at s1
    refine ⟨hpackInt 0x80 7 i ++ w2, ?_, ?_⟩
    · simp [encodeRemoved, he, writeIndexed, ← hu, e2, bind, Except.bind, pure, Except.pure]
    · simpa using s1.append s2

/-- One pass of the re-send loop: the table, and the headers sent again. -/
def passTab (t : Tab) : List Hdr → Tab × List Hdr
  | [] => (t, [])
  | h :: hs =>
    match findHeader t.entries h with
    | none => let r := passTab (encTab t h) hs; (r.1, h :: r.2)
    | some _ => passTab t hs

theorem resendPass_steps (hs : List Hdr) : ∀ t,
    ∃ w, resendPass t hs = .ok ((passTab t hs).1, w, !(passTab t hs).2.isEmpty) ∧
      Steps (erase t) w (erase (passTab t hs).1) (passTab t hs).2 := by
  induction hs with
  | nil => intro t; exact ⟨[], rfl, Steps.nil _⟩
  | cons h hs ih =>
    intro t
    unfold resendPass passTab
    cases hf : findHeader t.entries h with
    | some i => exact ih t
    | none =>
      obtain ⟨w1, e1, s1⟩ := encodeHeader_steps t h
      obtain ⟨w2, e2, s2⟩ := ih (encTab t h)
      refine ⟨w1 ++ w2, ?_, ?_⟩
      · simp [e1, e2, bind, Except.bind, pure, Except.pure]
      · simpa using s1.append s2

/-- The re-send loop without the bytes. -/
def loopTab : Nat → Tab → List Hdr → Option (Tab × List Hdr)
  | 0, _, _ => none
  | n + 1, t, refs =>
    if refs = [] then some (t, [])
    else
      let r := passTab t refs
      if r.2 = [] then some r
      else match loopTab n r.1 refs with
        | none => none
        | some (t', l) => some (t', r.2 ++ l)

theorem resendLoop_none (refs : List Hdr) : ∀ n t, resendLoop n t refs = none ↔ loopTab n t refs = none := by
  intro n
  induction n with
  | zero => intro t; simp [resendLoop, loopTab]
  | succ n ih =>
    intro t
    unfold resendLoop loopTab
    by_cases hr : refs = []
    · simp [hr]
    · obtain ⟨w, e, _⟩ := resendPass_steps refs t
      simp only [hr, if_false, e]
      by_cases hl : (passTab t refs).2 = []
      · simp [hl]
      · have hb : (!(passTab t refs).2.isEmpty) = true := by simp [hl]
        simp only [hb, hl, if_false]
        have := ih (passTab t refs).1
        cases h1 : resendLoop n (passTab t refs).1 refs with
        | none => rw [h1] at this; simp [this.1 rfl]
        | some r =>
          cases h2 : loopTab n (passTab t refs).1 refs with
          | none => rw [h1, h2] at this; simp at this
          | some q => cases r <;> simp

theorem resendLoop_steps (refs : List Hdr) : ∀ n t t' l, loopTab n t refs = some (t', l) →
    ∃ w, resendLoop n t refs = some (.ok (t', w)) ∧ Steps (erase t) w (erase t') l := by
  intro n
  induction n with
  | zero => intro t t' l h; simp [loopTab] at h
  | succ n ih =>
    intro t t' l h
    unfold loopTab at h
    unfold resendLoop
    by_cases hr : refs = []
    · simp only [hr, if_true, Option.some.injEq, Prod.mk.injEq] at h
      obtain ⟨rfl, rfl⟩ := h
      exact ⟨[], by simp [hr], Steps.nil _⟩
    · obtain ⟨w, e, s⟩ := resendPass_steps refs t
      simp only [hr, if_false] at h ⊢
      rw [e]
      by_cases hl : (passTab t refs).2 = []
      · simp only [hl, if_true, Option.some.injEq] at h
        rw [h] at s hl ⊢
        dsimp only at hl s
        subst hl
        exact ⟨w, rfl, s⟩
      · have hb : (!(passTab t refs).2.isEmpty) = true := by simp [hl]
        simp only [hl, if_false] at h
        simp only [hb]
        cases h2 : loopTab n (passTab t refs).1 refs with
        | none => simp [h2] at h
        | some q =>
          rw [h2] at h
          simp only [Option.some.injEq, Prod.mk.injEq] at h
          obtain ⟨rfl, rfl⟩ := h
          obtain ⟨w2, e2, s2⟩ := ih _ _ _ h2
          exact ⟨w ++ w2, by simp [e2], s.append s2⟩

end Verif.Http2
