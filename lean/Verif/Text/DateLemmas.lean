import Verif.Text.SimpleProc
import Verif.Text.DateSpec
import Verif.PyLemmas
/-
The pattern of dates in compressor/simple is that of the specification.
-/
namespace Verif.Text
open Verif Spec

theorem fits_cons (p : Place) (ps : List Place) (v : Str) :
    fitsAll (p :: ps) v = true ↔ ∃ c r, v = c :: r ∧ p.fits c = true ∧ fitsAll ps r = true := by
  cases v with
  | nil => simp [fitsAll]
  | cons c v => simp [fitsAll]

theorem fits_replicate (p : Place) (n : Nat) (ps : List Place) : ∀ v : Str,
    fitsAll (List.replicate n p ++ ps) v = true ↔
      ∃ s r, v = s ++ r ∧ s.length = n ∧ (∀ c ∈ s, p.fits c = true) ∧ fitsAll ps r = true := by
  induction n with
  | zero =>
    intro v
    constructor
    · intro h; exact ⟨[], v, rfl, rfl, by simp, by simpa using h⟩
    · rintro ⟨s, r, rfl, hs, _, h⟩
      have := List.length_eq_zero_iff.1 hs
      subst this
      simpa using h
  | succ n ih =>
    intro v
    rw [List.replicate_succ, List.cons_append, fits_cons]
    constructor
    · rintro ⟨c, r, rfl, hc, hr⟩
      obtain ⟨s, r', rfl, hl, hs, h⟩ := (ih r).1 hr
      refine ⟨c :: s, r', rfl, by simp [hl], ?_, h⟩
      intro x hx
      rcases List.mem_cons.1 hx with rfl | hx
      · exact hc
      · exact hs x hx
    · rintro ⟨s, r, rfl, hl, hs, h⟩
      cases s with
      | nil => simp at hl
      | cons c s =>
        refine ⟨c, s ++ r, rfl, hs c (by simp), (ih _).2 ⟨s, r, rfl, by simpa using hl, fun x hx => hs x (by simp [hx]), h⟩⟩

theorem fits_words (n : Nat) (ps : List Place) (v : Str) : fitsAll (words n ++ ps) v = true ↔
    ∃ s, Letters n s ∧ ∃ r, v = s ++ r ∧ fitsAll ps r = true := by
  have hw : ∀ c, Place.word.fits c = true ↔ WordChar c := by
    intro c
    simp [Place.fits, isWordChar, WordChar, or_assoc]
  rw [words, fits_replicate]
  simp only [hw, Letters]
  constructor
  · rintro ⟨s, r, rfl, hl, hs, h⟩; exact ⟨s, ⟨hl, hs⟩, r, rfl, h⟩
  · rintro ⟨s, ⟨hl, hs⟩, r, rfl, h⟩; exact ⟨s, r, rfl, hl, hs, h⟩

theorem fits_digits (n : Nat) (ps : List Place) (v : Str) : fitsAll (digits n ++ ps) v = true ↔
    ∃ s, Digits n s ∧ ∃ r, v = s ++ r ∧ fitsAll ps r = true := by
  have hw : ∀ c, Place.digit.fits c = true ↔ 48 ≤ c ∧ c ≤ 57 := by
    intro c
    simp [Place.fits]
  rw [digits, fits_replicate]
  simp only [hw, Digits]
  constructor
  · rintro ⟨s, r, rfl, hl, hs, h⟩; exact ⟨s, ⟨hl, hs⟩, r, rfl, h⟩
  · rintro ⟨s, ⟨hl, hs⟩, r, rfl, h⟩; exact ⟨s, r, rfl, hl, hs, h⟩

theorem fits_lits (l : Str) (ps : List Place) : ∀ v : Str, fitsAll (lits l ++ ps) v = true ↔
    ∃ r, v = l ++ r ∧ fitsAll ps r = true := by
  induction l with
  | nil => intro v; simp [lits]
  | cons d l ih =>
    intro v
    simp only [lits, List.map_cons, List.cons_append] at ih ⊢
    rw [fits_cons]
    constructor
    · rintro ⟨c, r, rfl, hc, hr⟩
      obtain ⟨r', rfl, h⟩ := (ih r).1 hr
      have : c = d := by simpa [Place.fits] using hc
      subst this
      exact ⟨r', rfl, h⟩
    · rintro ⟨r, rfl, h⟩
      exact ⟨d, l ++ r, rfl, by simp [Place.fits], (ih _).2 ⟨r, rfl, h⟩⟩

theorem fits_nil (v : Str) : fitsAll [] v = true ↔ v = [] ∨ v = [10] := by
  simp [fitsAll]

theorem fits_space (ps : List Place) (v : Str) : fitsAll ([.digitOrSpace, .digit] ++ ps) v = true ↔
    ∃ s, (Digits 1 s ∨ s = b!" ") ∧ ∃ t, Digits 1 t ∧ ∃ r, v = s ++ (t ++ r) ∧ fitsAll ps r = true := by
  simp only [List.cons_append, List.nil_append]
  rw [fits_cons]
  constructor
  · rintro ⟨c, r, rfl, hc, hr⟩
    rw [fits_cons] at hr
    obtain ⟨d, r, rfl, hd, hr⟩ := hr
    simp only [Place.fits, Bool.or_eq_true, beq_iff_eq, Bool.and_eq_true, decide_eq_true_eq] at hc hd
    refine ⟨[c], ?_, [d], ⟨rfl, by simpa using hd⟩, r, rfl, hr⟩
    rcases hc with rfl | hc
    · exact .inr rfl
    · exact .inl ⟨rfl, by simpa using hc⟩
  · rintro ⟨s, hs, t, ⟨ht1, ht2⟩, r, rfl, hr⟩
    obtain ⟨d, rfl⟩ := List.length_eq_one_iff.1 ht1
    rcases hs with ⟨hs1, hs2⟩ | rfl
    · obtain ⟨c, rfl⟩ := List.length_eq_one_iff.1 hs1
      refine ⟨c, d :: r, rfl, ?_, (fits_cons _ _ _).2 ⟨d, r, rfl, ?_, hr⟩⟩
      · simpa [Place.fits] using Or.inr (hs2 c (by simp))
      · simpa [Place.fits] using ht2 d (by simp)
    · refine ⟨32, d :: r, rfl, by simp [Place.fits], (fits_cons _ _ _).2 ⟨d, r, rfl, ?_, hr⟩⟩
      simpa [Place.fits] using ht2 d (by simp)

/-- A pattern and the end. -/
theorem fits_end (l : Str) (v : Str) : fitsAll (lits l) v = true ↔ ∃ e, v = l ++ e ∧ (e = [] ∨ e = [10]) := by
  have := fits_lits l [] v
  simpa [fits_nil] using this

theorem fits_digits_end (n : Nat) (v : Str) : fitsAll (digits n) v = true ↔
    ∃ s, Digits n s ∧ ∃ e, v = s ++ e ∧ (e = [] ∨ e = [10]) := by
  have := fits_digits n [] v
  simpa [fits_nil] using this

theorem rfc1123_iff (v : Str) : fitsAll (words 3 ++ lits b!", " ++ digits 2 ++ lits b!" " ++ words 3 ++ lits b!" " ++ digits 4 ++
    lits b!" " ++ clock ++ lits b!" GMT") v = true ↔ ∃ s e, v = s ++ e ∧ (e = [] ∨ e = [10]) ∧ Rfc1123 s := by
  simp only [clock, List.append_assoc, fits_words, fits_lits, fits_digits, fits_end]
  constructor
  · rintro ⟨wd, h1, _, rfl, _, rfl, d, h2, _, rfl, _, rfl, mon, h3, _, rfl, _, rfl, y, h4, _, rfl, _, rfl, h, h5, _, rfl, _, rfl,
      m, h6, _, rfl, _, rfl, sec, h7, _, rfl, e, rfl, he⟩
    exact ⟨wd ++ b!", " ++ d ++ b!" " ++ mon ++ b!" " ++ y ++ b!" " ++ h ++ b!":" ++ m ++ b!":" ++ sec ++ b!" GMT", e,
      by simp only [List.append_assoc], he, wd, d, mon, y, h, m, sec, h1, h2, h3, h4, h5, h6, h7, rfl⟩
  · rintro ⟨_, e, rfl, he, wd, d, mon, y, h, m, sec, h1, h2, h3, h4, h5, h6, h7, rfl⟩
    simp only [List.append_assoc]
    exact ⟨wd, h1, _, rfl, _, rfl, d, h2, _, rfl, _, rfl, mon, h3, _, rfl, _, rfl, y, h4, _, rfl, _, rfl, h, h5, _, rfl, _, rfl,
      m, h6, _, rfl, _, rfl, sec, h7, _, rfl, e, rfl, he⟩

theorem rfc850_iff (n : Nat) (v : Str) : fitsAll (words n ++ lits b!", " ++ digits 2 ++ lits b!"-" ++ words 3 ++ lits b!"-" ++
    digits 2 ++ lits b!" " ++ clock ++ lits b!" GMT") v = true ↔ ∃ s e, v = s ++ e ∧ (e = [] ∨ e = [10]) ∧
      ∃ wd d mon y h m sec, Letters n wd ∧ Digits 2 d ∧ Letters 3 mon ∧ Digits 2 y ∧ Digits 2 h ∧ Digits 2 m ∧ Digits 2 sec ∧
        s = wd ++ b!", " ++ d ++ b!"-" ++ mon ++ b!"-" ++ y ++ b!" " ++ h ++ b!":" ++ m ++ b!":" ++ sec ++ b!" GMT" := by
  simp only [clock, List.append_assoc, fits_words, fits_lits, fits_digits, fits_end]
  constructor
  · rintro ⟨wd, h1, _, rfl, _, rfl, d, h2, _, rfl, _, rfl, mon, h3, _, rfl, _, rfl, y, h4, _, rfl, _, rfl, h, h5, _, rfl, _, rfl,
      m, h6, _, rfl, _, rfl, sec, h7, _, rfl, e, rfl, he⟩
    exact ⟨wd ++ b!", " ++ d ++ b!"-" ++ mon ++ b!"-" ++ y ++ b!" " ++ h ++ b!":" ++ m ++ b!":" ++ sec ++ b!" GMT", e,
      by simp only [List.append_assoc], he, wd, d, mon, y, h, m, sec, h1, h2, h3, h4, h5, h6, h7, by simp only [List.append_assoc]⟩
  · rintro ⟨_, e, rfl, he, wd, d, mon, y, h, m, sec, h1, h2, h3, h4, h5, h6, h7, rfl⟩
    simp only [List.append_assoc]
    exact ⟨wd, h1, _, rfl, _, rfl, d, h2, _, rfl, _, rfl, mon, h3, _, rfl, _, rfl, y, h4, _, rfl, _, rfl, h, h5, _, rfl, _, rfl,
      m, h6, _, rfl, _, rfl, sec, h7, _, rfl, e, rfl, he⟩

theorem asctime_iff (v : Str) : fitsAll (words 3 ++ lits b!" " ++ words 3 ++ lits b!" " ++ [.digitOrSpace, .digit] ++ lits b!" " ++
    clock ++ lits b!" " ++ digits 4) v = true ↔ ∃ s e, v = s ++ e ∧ (e = [] ∨ e = [10]) ∧ Asctime s := by
  simp only [clock, List.append_assoc, fits_words, fits_lits, fits_digits, fits_space, fits_digits_end]
  constructor
  · rintro ⟨wd, h1, _, rfl, _, rfl, mon, h2, _, rfl, _, rfl, d1, h3, d2, h4, _, rfl, _, rfl, h, h5, _, rfl, _, rfl,
      m, h6, _, rfl, _, rfl, sec, h7, _, rfl, _, rfl, y, h8, e, rfl, he⟩
    exact ⟨wd ++ b!" " ++ mon ++ b!" " ++ d1 ++ d2 ++ b!" " ++ h ++ b!":" ++ m ++ b!":" ++ sec ++ b!" " ++ y, e,
      by simp only [List.append_assoc], he, wd, mon, d1, d2, h, m, sec, y, h1, h2, h3, h4, h5, h6, h7, h8, rfl⟩
  · rintro ⟨_, e, rfl, he, wd, mon, d1, d2, h, m, sec, y, h1, h2, h3, h4, h5, h6, h7, h8, rfl⟩
    simp only [List.append_assoc]
    exact ⟨wd, h1, _, rfl, _, rfl, mon, h2, _, rfl, _, rfl, d1, h3, d2, h4, _, rfl, _, rfl, h, h5, _, rfl, _, rfl,
      m, h6, _, rfl, _, rfl, sec, h7, _, rfl, _, rfl, y, h8, e, rfl, he⟩

theorem dateMatch_iff (v : Str) : dateMatch v = true ↔ DateText v := by
  unfold dateMatch datePatterns
  simp only [List.any_append, List.any_cons, List.any_nil, List.map_cons, List.map_nil, Bool.or_eq_true,
    Bool.or_false]
  rw [rfc1123_iff, rfc850_iff, rfc850_iff, rfc850_iff, rfc850_iff, asctime_iff]
  constructor
  · rintro ((⟨s, e, h1, h2, h⟩ | h) | ⟨s, e, h1, h2, h⟩)
    · exact ⟨s, e, h1, h2, .inl h⟩
    · rcases h with ⟨s, e, h1, h2, h⟩ | ⟨s, e, h1, h2, h⟩ | ⟨s, e, h1, h2, h⟩ | ⟨s, e, h1, h2, h⟩ <;>
      · obtain ⟨wd, d, mon, y, hh, m, sec, h⟩ := h
        exact ⟨s, e, h1, h2, .inr (.inl ⟨_, wd, d, mon, y, hh, m, sec, by decide, by decide, h⟩)⟩
    · exact ⟨s, e, h1, h2, .inr (.inr h)⟩
  · rintro ⟨s, e, h1, h2, h | h | h⟩
    · exact .inl (.inl ⟨s, e, h1, h2, h⟩)
    · obtain ⟨n, wd, d, mon, y, hh, m, sec, hn1, hn2, h⟩ := h
      have hn : n = 6 ∨ n = 7 ∨ n = 8 ∨ n = 9 := by omega
      rcases hn with rfl | rfl | rfl | rfl
      · exact .inl (.inr (.inl ⟨s, e, h1, h2, wd, d, mon, y, hh, m, sec, h⟩))
      · exact .inl (.inr (.inr (.inl ⟨s, e, h1, h2, wd, d, mon, y, hh, m, sec, h⟩)))
      · exact .inl (.inr (.inr (.inr (.inl ⟨s, e, h1, h2, wd, d, mon, y, hh, m, sec, h⟩))))
      · exact .inl (.inr (.inr (.inr (.inr ⟨s, e, h1, h2, wd, d, mon, y, hh, m, sec, h⟩))))
    · exact .inr ⟨s, e, h1, h2, h⟩

theorem parseDate_iff (C : DateLib) (v : Str) (t : Int) : parseDate C v = some t ↔
    DateText v ∧ ∃ y rest, C.parsedate v = some (y, rest) ∧ C.timegm (fullYear y, rest) = some t := by
  unfold parseDate
  by_cases h : dateMatch v = true
  · rw [if_pos h]
    have h' := (dateMatch_iff v).1 h
    cases hp : C.parsedate v with
    | none => simp
    | some p =>
      obtain ⟨y, rest⟩ := p
      have e : (if y < 100 then (if y > 68 then y + 1900 else y + 2000) else y) = fullYear y := by
        unfold fullYear
        split_ifs <;> omega
      simp only [e, Option.some.injEq, Prod.mk.injEq]
      constructor
      · intro h; exact ⟨h', y, rest, ⟨rfl, rfl⟩, h⟩
      · rintro ⟨_, _, _, ⟨rfl, rfl⟩, h⟩; exact h
  · rw [if_neg h]
    simp only [reduceCtorEq, false_iff]
    exact fun hc => h ((dateMatch_iff v).2 hc.1)

theorem paramDict_snoc (params : List Str) (q : Str) : paramDict (params ++ [q]) =
    match splitOnce 61 q with
    | some (name, value) => (paramDict params).set name value
    | none => paramDict params := by
  rw [paramDict, List.foldl_append]
  rfl

/-- A parameter more. -/
theorem lastValue_snoc (params : List Str) (q name v : Str) (hn : 61 ∉ name) : LastValue (params ++ [q]) name v ↔
    q = name ++ [61] ++ v ∨ (LastValue params name v ∧ ∀ w, q ≠ name ++ [61] ++ w) := by
  constructor
  · rintro ⟨a, b, e, _, hb⟩
    rcases List.eq_nil_or_concat b with rfl | ⟨b, x, rfl⟩
    · rw [List.append_nil] at e
      have := (List.append_inj' e rfl).2
      exact .inl (by simpa using this)
    · rw [List.concat_eq_append] at e hb
      rw [← List.append_assoc] at e
      obtain ⟨e1, e2⟩ := List.append_inj' e rfl
      have : q = x := by simpa using e2
      subst this
      exact .inr ⟨⟨a, b, e1, hn, fun y hy => hb y (by simp [hy])⟩, hb q (by simp)⟩
  · rintro (rfl | ⟨⟨a, b, rfl, _, hb⟩, hq⟩)
    · exact ⟨params, [], by simp, hn, by simp⟩
    · refine ⟨a, b ++ [q], by simp, hn, fun y hy => ?_⟩
      rcases List.mem_append.1 hy with hy | hy
      · exact hb y hy
      · rw [List.mem_singleton.1 hy]; exact hq

theorem lastValue_exists {name : Str} (hn : 61 ∉ name) (params : List Str) (h : ∃ q ∈ params, ∃ w, q = name ++ [61] ++ w) :
    ∃ v, LastValue params name v := by
  induction params with
  | nil => obtain ⟨q, hq, _⟩ := h; cases hq
  | cons x params ih =>
    by_cases h' : ∃ q ∈ params, ∃ w, q = name ++ [61] ++ w
    · obtain ⟨v, a, b, rfl, _, hb⟩ := ih h'
      exact ⟨v, x :: a, b, by simp, hn, hb⟩
    · obtain ⟨q, hq, w, rfl⟩ := h
      rcases List.mem_cons.1 hq with rfl | hq
      · exact ⟨w, [], params, by simp, hn, fun y hy w' e => h' ⟨y, hy, w', e⟩⟩
      · exact absurd ⟨_, hq, w, rfl⟩ h'

/-- The dictionary of parameters holds the last value of a name. -/
theorem paramDict_get (name : Str) (hn : 61 ∉ name) (params : List Str) (v : Str) :
    (paramDict params).get? name = some v ↔ LastValue params name v := by
  induction hl : params.length generalizing params with
  | zero =>
    have := List.length_eq_zero_iff.1 hl
    subst this
    constructor
    · intro h; cases h
    · rintro ⟨a, b, e, _⟩; simp at e
  | succ k ih' =>
    obtain ⟨params, q, rfl⟩ : ∃ a x, params = a ++ [x] := by
      rcases List.eq_nil_or_concat params with rfl | ⟨a, x, rfl⟩
      · cases hl
      · exact ⟨a, x, List.concat_eq_append⟩
    have ih := ih' params (by simpa using hl)
    rw [paramDict_snoc, lastValue_snoc _ _ _ _ hn]
    cases hs : splitOnce 61 q with
    | none =>
      have hq := splitOnce_none.1 hs
      have hne : ∀ w, q ≠ name ++ [61] ++ w := by
        rintro w rfl
        simp at hq
      simp only [ih, hne v, false_or]
      exact ⟨fun h => ⟨h, hne⟩, fun h => h.1⟩
    | some ab =>
      obtain ⟨a, b⟩ := ab
      obtain ⟨rfl, ha⟩ := splitOnce_some hs
      dsimp only
      rw [Dict.get?_set]
      by_cases hna : a = name
      · subst hna
        rw [if_pos rfl]
        simp only [Option.some.injEq, List.append_assoc, List.cons_append, List.nil_append]
        constructor
        · rintro rfl; exact .inl rfl
        · rintro (h | ⟨_, h⟩)
          · simpa using h
          · exact absurd rfl (h b)
      · rw [if_neg hna, ih]
        have hne : ∀ w, a ++ 61 :: b ≠ name ++ [61] ++ w := by
          intro w e
          have e1 := splitOnce_eq ha b
          rw [e] at e1
          have e2 := splitOnce_eq hn w
          simp only [List.append_assoc, List.cons_append, List.nil_append] at e1
          rw [e2] at e1
          simp only [Option.some.injEq, Prod.mk.injEq] at e1
          exact hna e1.1.symm
        simp only [hne v, false_or]
        exact ⟨fun h => ⟨h, hne⟩, fun h => h.1⟩

/-- Without such a parameter it holds none. -/
theorem paramDict_none (name : Str) (hn : 61 ∉ name) (params : List Str) (h : ∀ q ∈ params, ∀ w, q ≠ name ++ [61] ++ w) :
    (paramDict params).get? name = none := by
  cases hg : (paramDict params).get? name with
  | none => rfl
  | some v =>
    obtain ⟨a, b, rfl, _⟩ := (paramDict_get name hn params v).1 hg
    exact absurd rfl (h (name ++ [61] ++ v) (by simp) v)

end Verif.Text
