import Verif.Http2.CutSpec
import Verif.Http2.Reach
/- The decoder on a header block that was cut. -/
namespace Verif.Http2
open Verif Spec

/-! ### Numbers -/

theorem byte_bits (b : Nat) : ((b &&& 0x80 ≠ 0) ↔ b.testBit 7 = true) ∧
    (b.testBit 7 = false → ((b &&& 0xC0 = 0) ↔ b.testBit 6 = false)) ∧
    (b.testBit 7 = false → b.testBit 6 = true → ((b &&& 0xE0 = 0x60) ↔ b.testBit 5 = true) ∧ ((b &&& 0xE0 = 0x40) ↔ b.testBit 5 = false)) := by
  have h1 : ∀ c, b &&& (255 &&& c) = (b % 256) &&& c := by
    intro c; rw [← Nat.and_assoc, Nat.and_two_pow_sub_one_eq_mod b 8]
  have h2 : ∀ i, i < 8 → (b % 256).testBit i = b.testBit i := by
    intro i hi
    rw [show (256 : Nat) = 2 ^ 8 from rfl, Nat.testBit_mod_two_pow]; simp [hi]
  have key : ∀ c, c < 256 → ((c &&& 0x80 ≠ 0) ↔ c.testBit 7 = true) ∧
    (c.testBit 7 = false → ((c &&& 0xC0 = 0) ↔ c.testBit 6 = false)) ∧
    (c.testBit 7 = false → c.testBit 6 = true → ((c &&& 0xE0 = 0x60) ↔ c.testBit 5 = true) ∧ ((c &&& 0xE0 = 0x40) ↔ c.testBit 5 = false)) := by
    decide +kernel
  have := key (b % 256) (Nat.mod_lt _ (by decide))
  rw [h2 7 (by decide), h2 6 (by decide), h2 5 (by decide)] at this
  rw [← h1 0x80, ← h1 0xC0, ← h1 0xE0] at this
  exact this

theorem and_80' (b : Nat) : (b &&& 0x80 > 0) ↔ b.testBit 7 = true := by
  rw [← (byte_bits b).1]; omega

theorem readCont_digits {w : List Nat} {n : Nat} (h : Digits w n) : ∀ value shift,
    (∀ rest, readCont value shift (w ++ rest) = .ok (value + n * 2 ^ shift, rest)) ∧
    ∀ j, j < w.length → readCont value shift (w.take j) = .error .index := by
  induction h with
  | last b h =>
    intro value shift
    refine ⟨fun rest => ?_, fun j hj => ?_⟩
    · simp only [List.singleton_append, readCont]
      rw [if_neg (by rw [and_80']; simp [h]), and_7f, Nat.shiftLeft_eq]
    · have : j = 0 := by simpa using hj
      subst this; rfl
  | more b h w n _ ih =>
    intro value shift
    refine ⟨fun rest => ?_, fun j hj => ?_⟩
    · simp only [List.cons_append, readCont]
      rw [if_pos ((and_80' b).2 h), (ih _ _).1 rest, and_7f, Nat.shiftLeft_eq]
      congr 2
      rw [pow_add]; ring
    · cases j with
      | zero => rfl
      | succ j =>
        simp only [List.take_succ_cons, readCont]
        rw [if_pos ((and_80' b).2 h)]
        exact (ih _ _).2 j (by simpa using hj)

theorem readCont_inv (x : List Nat) : ∀ value shift u r, readCont value shift x = .ok (u, r) →
    ∃ w n, Digits w n ∧ x = w ++ r ∧ u = value + n * 2 ^ shift := by
  induction x with
  | nil => intro value shift u r h; simp [readCont] at h
  | cons b x ih =>
    intro value shift u r h
    simp only [readCont] at h
    by_cases hb : b.testBit 7 = true
    · rw [if_pos ((and_80' b).2 hb)] at h
      obtain ⟨w, n, hd, hx, hu⟩ := ih _ _ _ _ h
      refine ⟨b :: w, b % 128 + 128 * n, .more b hb w n hd, by simp [hx], ?_⟩
      rw [hu, and_7f, Nat.shiftLeft_eq, pow_add]; ring
    · rw [if_neg (by rw [and_80']; exact hb)] at h
      simp only [Except.ok.injEq, Prod.mk.injEq] at h
      refine ⟨[b], b % 128, .last b (by simpa using hb), by simp [h.2], ?_⟩
      rw [← h.1, and_7f, Nat.shiftLeft_eq]

theorem readInteger_unfold {p : Nat} (hp : p ≤ 8) (b : Nat) (x : List Nat) : readInteger b p x =
    if b % 2 ^ p = 2 ^ p - 1 then readCont (2 ^ p - 1) 0 x else .ok (b % 2 ^ p, x) := by
  unfold readInteger
  simp only [hp, if_true, maxValues_le8 hp, bind, Except.bind, pure, Except.pure,
    Nat.and_two_pow_sub_one_eq_mod]
  split
  · rename_i h; rw [h]
  · rfl

theorem readInteger_after {p b v : Nat} {w : List Nat} (hp : p ≤ 8) (h : IntAfter p b w v) :
    (∀ rest, readInteger b p (w ++ rest) = .ok (v, rest)) ∧
    ∀ j, j < w.length → readInteger b p (w.take j) = .error .index := by
  rcases h with ⟨h, rfl, rfl⟩ | ⟨h, n, hd, rfl⟩
  · exact ⟨fun rest => by rw [readInteger_unfold hp, if_neg h]; rfl, fun j hj => by simp at hj⟩
  · refine ⟨fun rest => ?_, fun j hj => ?_⟩
    · rw [readInteger_unfold hp, if_pos h, (readCont_digits hd _ _).1]; simp
    · rw [readInteger_unfold hp, if_pos h, (readCont_digits hd _ _).2 j hj]

theorem readInteger_inv {p b v : Nat} {x r : List Nat} (hp : p ≤ 8) (h : readInteger b p x = .ok (v, r)) :
    ∃ w, IntAfter p b w v ∧ x = w ++ r := by
  rw [readInteger_unfold hp] at h
  split at h
  · rename_i hb
    obtain ⟨w, n, hd, hx, hv⟩ := readCont_inv _ _ _ _ _ h
    exact ⟨w, .inr ⟨hb, n, hd, by simpa using hv⟩, hx⟩
  · rename_i hb
    simp only [Except.ok.injEq, Prod.mk.injEq] at h
    exact ⟨[], .inl ⟨hb, rfl, h.1.symm⟩, by simp [h.2]⟩

theorem intAfter_zero {b v : Nat} {w : List Nat} : IntAfter 0 b w v ↔ Digits w v := by
  unfold IntAfter
  simp [Nat.mod_one]

/-! ### Strings -/

theorem readString_lit {w : List Nat} {s : Str} (h : StringLit w s) :
    (∀ rest, readLiteralString (w ++ rest) = .ok (s, rest)) ∧
    (∀ j, j < w.length - s.length → readLiteralString (w.take j) = .error .index) ∧
    ∀ j, j ≤ w.length → w.length - s.length ≤ j → ∃ s', readLiteralString (w.take j) = .ok (s', []) := by
  obtain ⟨d, hd, rfl⟩ := h
  have hr := readInteger_after (p := 0) (b := 0) (by decide) (intAfter_zero.2 hd)
  refine ⟨fun rest => ?_, fun j hj => ?_, fun j hj hj' => ?_⟩
  · unfold readLiteralString
    rw [List.append_assoc, hr.1]
    simp [bind, Except.bind, pure, Except.pure]
  · have hj : j < d.length := by simpa using hj
    unfold readLiteralString
    rw [List.take_append_of_le_length (by omega), hr.2 j hj]
    rfl
  · simp only [List.length_append] at hj hj'
    unfold readLiteralString
    rw [List.take_append, List.take_of_length_le (by omega), hr.1]
    refine ⟨(s.take (j - d.length)).take s.length, ?_⟩
    simp only [bind, Except.bind, pure, Except.pure]
    congr 2
    rw [List.drop_eq_nil_iff]; simp

theorem readString_nil : readLiteralString [] = .error .index := rfl

theorem readString_inv {x r : List Nat} {s : Str} (h : readLiteralString x = .ok (s, r)) (hr : r ≠ []) :
    ∃ w, StringLit w s ∧ x = w ++ r := by
  unfold readLiteralString at h
  cases e : readInteger 0 0 x with
  | error e' => simp [e, bind, Except.bind] at h
  | ok q =>
    obtain ⟨n, y⟩ := q
    simp only [e, bind, Except.bind, pure, Except.pure, Except.ok.injEq, Prod.mk.injEq] at h
    obtain ⟨d, hd, hx⟩ := readInteger_inv (by decide) e
    have hlen : n < y.length := by
      by_contra hc
      apply hr; rw [← h.2]; simp; omega
    refine ⟨d ++ s, ⟨d, ?_, rfl⟩, ?_⟩
    · have : s.length = n := by rw [← h.1]; simp; omega
      rw [this]; exact intAfter_zero.1 hd
    · rw [hx, List.append_assoc, ← h.1, ← h.2, List.take_append_drop]

theorem decodeName_lit {t : Tab} {i : Nat} {w : List Nat} (h : NameLit i w) {x : List Nat} {n : Str} {r : List Nat}
    (hok : decodeName t i (w ++ x) = .ok (n, r)) :
    (∀ rest, decodeName t i (w ++ rest) = .ok (n, rest)) ∧
    ∀ j, j < w.length → decodeName t i (w.take j) = .error .index ∨ ∃ n', decodeName t i (w.take j) = .ok (n', []) := by
  rcases h with ⟨rfl, s, hs⟩ | ⟨hi, rfl⟩
  · have h := readString_lit hs
    simp only [decodeName, if_true] at hok ⊢
    rw [h.1] at hok
    simp only [Except.ok.injEq, Prod.mk.injEq] at hok
    refine ⟨fun rest => by rw [h.1, hok.1], fun j hj => ?_⟩
    by_cases hc : j < w.length - s.length
    · exact .inl (h.2.1 j hc)
    · exact .inr (h.2.2 j (by omega) (by omega))
  · refine ⟨fun rest => ?_, fun j hj => by simp at hj⟩
    simp only [decodeName, if_neg hi] at hok ⊢
    cases e : t.entries[i - 1]? with
    | none => simp [e] at hok
    | some en => simp only [e, Except.ok.injEq, Prod.mk.injEq] at hok ⊢; exact ⟨hok.1, rfl⟩

theorem decodeName_inv {t : Tab} {i : Nat} {x r : List Nat} {n : Str} (h : decodeName t i x = .ok (n, r)) (hr : r ≠ []) :
    ∃ w, NameLit i w ∧ x = w ++ r := by
  unfold decodeName at h
  split at h
  · rename_i hi
    obtain ⟨w, hs, hx⟩ := readString_inv h hr
    exact ⟨w, .inl ⟨hi, _, hs⟩, hx⟩
  · rename_i hi
    split at h
    · simp at h
    · simp only [Except.ok.injEq, Prod.mk.injEq] at h
      exact ⟨[], .inr ⟨hi, rfl⟩, by simp [h.2]⟩

/-! ### One representation -/

/-- The literals that do not substitute, in one: `keep` says whether the header goes into the table. -/
def plainLiteral (keep : Bool) (t : Tab) (byte : Nat) (rest : List Nat) : Py DecStep := do
  let (nameIndex, rest) ← readInteger byte 5 rest
  let (name, rest) ← decodeName t nameIndex rest
  let (value, rest) ← readLiteralString rest
  pure { tab := if keep then appendHeader t { header := (name, value), referenced := true, emitted := true } else t,
         out := [(name, value)], rest := rest }

def substLiteral (t : Tab) (byte : Nat) (rest : List Nat) : Py DecStep := do
  let (nameIndex, rest) ← readInteger byte 6 rest
  let (name, rest) ← decodeName t nameIndex rest
  let (referenceIndex, rest) ← readInteger 0 0 rest
  let (value, rest) ← readLiteralString rest
  let t ← insertHeader t { header := (name, value), referenced := true, emitted := true } referenceIndex
  pure { tab := t, out := [(name, value)], rest := rest }

theorem decodeStep_eq (t : Tab) (b : Nat) (x : List Nat) : decodeStep t b x =
    if b.testBit 7 = true then decodeIndexed t b x
    else if b.testBit 6 = true then plainLiteral (!b.testBit 5) t b x else substLiteral t b x := by
  obtain ⟨h7, h6, h5⟩ := byte_bits b
  unfold decodeStep
  by_cases e7 : b.testBit 7 = true
  · rw [if_pos (h7.2 e7), if_pos e7]
  · have e7' : b.testBit 7 = false := by simpa using e7
    rw [if_neg (fun h => e7 (h7.1 h)), if_neg e7]
    unfold decodeLiteral
    by_cases e6 : b.testBit 6 = true
    · rw [if_neg (by rw [h6 e7']; simp [e6]), if_pos e6]
      obtain ⟨a1, a2⟩ := h5 e7' e6
      by_cases e5 : b.testBit 5 = true
      · rw [if_pos (a1.2 e5)]; simp [plainLiteral, e5]
      · have e5' : b.testBit 5 = false := by simpa using e5
        rw [if_neg (fun h => e5 (a1.1 h)), if_pos (a2.2 e5')]; simp [plainLiteral, e5']
    · rw [if_pos ((h6 e7').2 (by simpa using e6)), if_neg e6]; rfl

theorem Rep.le {c : List Nat} {k : Nat} (h : Rep c k) : k < c.length := by
  cases h with
  | indexed => simp
  | literal b _ _ w i hi wn hn wv v hv => obtain ⟨d, _, rfl⟩ := hv; simp; omega
  | substitution b _ _ w i hi wn hn wr r hr wv v hv => obtain ⟨d, _, rfl⟩ := hv; simp; omega

/-- A representation that is accepted whole is read up to its end, and is accepted when cut exactly if the cut leaves all but
characters of its value. -/
theorem Rep.step {b : Nat} {w : List Nat} {k : Nat} (h : Rep (b :: w) k) {t : Tab} {x : List Nat} {s : DecStep}
    (hok : decodeStep t b (w ++ x) = .ok s) :
    (∃ t1 out, ∀ rest, decodeStep t b (w ++ rest) = .ok ⟨t1, out, rest⟩) ∧
    (∀ j, j ≤ w.length → w.length - k ≤ j → ∃ t1 out, decodeStep t b (w.take j) = .ok ⟨t1, out, []⟩) ∧
    ∀ j, j < w.length - k → decodeStep t b (w.take j) = .error .index := by
  simp only [decodeStep_eq] at hok ⊢
  cases h with
  | indexed _ h7 _ i hi =>
    simp only [h7, if_true] at hok ⊢
    have hr := readInteger_after (by decide) hi
    have full : ∃ t1 out, ∀ rest, decodeIndexed t b (w ++ rest) = .ok ⟨t1, out, rest⟩ := by
      simp only [decodeIndexed, hr.1, bind, Except.bind] at hok ⊢
      cases e : t.entries[i]? with
      | none => simp [e] at hok
      | some en =>
        cases hre : en.referenced with
        | true => exact ⟨_, _, fun rest => by simp only [hre, if_true]; rfl⟩
        | false => exact ⟨_, _, fun rest => by simp only [hre]; rfl⟩
    refine ⟨full, fun j hj hj' => ?_, fun j hj => ?_⟩
    · have : j = w.length := by omega
      obtain ⟨t1, out, hf⟩ := full
      exact ⟨t1, out, by rw [this, List.take_length]; simpa using hf []⟩
    · simp only [decodeIndexed, hr.2 j (by omega), bind, Except.bind]
  | literal _ h7 h6 w i hi wn hn wv v hv =>
    simp only [h7, h6, if_true, Bool.false_eq_true, if_false] at hok ⊢
    have hr := readInteger_after (by decide) hi
    have hs := readString_lit hv
    simp only [plainLiteral, List.append_assoc, hr.1, bind, Except.bind] at hok
    cases e : decodeName t i (wn ++ (wv ++ x)) with
    | error e' => simp [e] at hok
    | ok q =>
      obtain ⟨n, r⟩ := q
      have hname := decodeName_lit hn e
      refine ⟨⟨if (!b.testBit 5) = true then appendHeader t { header := (n, v), referenced := true, emitted := true } else t,
        [(n, v)], fun rest => ?_⟩, fun j hj hj' => ?_, fun j hj => ?_⟩
      rotate_left
      · obtain ⟨d, hd, rfl⟩ := hv
        simp only [List.length_append] at hj hj'
        obtain ⟨s', hs'⟩ := hs.2.2 (j - w.length - wn.length) (by simp; omega) (by simp; omega)
        refine ⟨if (!b.testBit 5) = true then appendHeader t { header := (n, s'), referenced := true, emitted := true } else t,
          [(n, s')], ?_⟩
        simp only [plainLiteral, bind, Except.bind]
        rw [List.append_assoc, List.take_append, List.take_of_length_le (by omega), hr.1]
        simp only
        rw [List.take_append, List.take_of_length_le (by omega), hname.1]
        simp only [hs']
        rfl
      · simp only [plainLiteral, bind, Except.bind]
        by_cases h1 : j < w.length
        · rw [List.append_assoc, List.take_append_of_le_length (by omega), hr.2 j h1]
        · rw [List.append_assoc, List.take_append, List.take_of_length_le (by omega), hr.1]
          simp only
          by_cases h2 : j - w.length < wn.length
          · rw [List.take_append_of_le_length (by omega)]
            rcases hname.2 _ h2 with h3 | ⟨n', h3⟩
            · rw [h3]
            · rw [h3]; rfl
          · rw [List.take_append, List.take_of_length_le (by omega), hname.1]
            simp only
            rw [hs.2.1 _ (by obtain ⟨d, hd, rfl⟩ := hv; simp only [List.length_append] at hj ⊢; omega)]
      · simp only [plainLiteral, List.append_assoc, hr.1, bind, Except.bind, hname.1, hs.1]
        rfl
  | substitution _ h7 h6 w i hi wn hn wr ri hri wv v hv =>
    simp only [h7, h6, Bool.false_eq_true, if_false] at hok ⊢
    have hr := readInteger_after (by decide) hi
    have hr' := readInteger_after (p := 0) (b := 0) (by decide) (intAfter_zero.2 hri)
    have hs := readString_lit hv
    simp only [substLiteral, List.append_assoc, hr.1, bind, Except.bind] at hok
    cases e : decodeName t i (wn ++ (wr ++ (wv ++ x))) with
    | error e' => simp [e] at hok
    | ok q =>
      obtain ⟨n, r⟩ := q
      have hname := decodeName_lit hn e
      rw [hname.1] at hok
      simp only [hr'.1, hs.1] at hok
      have hins : ∀ v' : Str, ∃ t', insertHeader t { header := (n, v'), referenced := true, emitted := true } ri = .ok t' := by
        intro v'
        unfold insertHeader at hok ⊢
        cases e : t.entries[ri]? with
        | none => simp [e] at hok
        | some en => simp only; split <;> exact ⟨_, rfl⟩
      refine ⟨?_, fun j hj hj' => ?_, fun j hj => ?_⟩
      · obtain ⟨t', ht'⟩ := hins v
        refine ⟨t', [(n, v)], fun rest => ?_⟩
        simp only [substLiteral, List.append_assoc, hr.1, bind, Except.bind, hname.1, hr'.1, hs.1, ht']
        rfl
      · obtain ⟨d, hd, rfl⟩ := hv
        simp only [List.length_append] at hj hj'
        obtain ⟨s', hs'⟩ := hs.2.2 (j - w.length - wn.length - wr.length) (by simp; omega) (by simp; omega)
        obtain ⟨t', ht'⟩ := hins s'
        refine ⟨t', [(n, s')], ?_⟩
        simp only [substLiteral, bind, Except.bind]
        rw [List.append_assoc, List.append_assoc, List.take_append, List.take_of_length_le (by omega), hr.1]
        simp only
        rw [List.take_append, List.take_of_length_le (by omega), hname.1]
        simp only
        rw [List.take_append, List.take_of_length_le (by omega), hr'.1]
        simp only [hs', ht']
        rfl
      · simp only [substLiteral, bind, Except.bind]
        rw [List.append_assoc, List.append_assoc]
        by_cases h1 : j < w.length
        · rw [List.take_append_of_le_length (by omega), hr.2 j h1]
        · rw [List.take_append, List.take_of_length_le (by omega), hr.1]
          simp only
          by_cases h2 : j - w.length < wn.length
          · rw [List.take_append_of_le_length (by omega)]
            rcases hname.2 _ h2 with h3 | ⟨n', h3⟩
            · rw [h3]
            · rw [h3]; rfl
          · rw [List.take_append, List.take_of_length_le (by omega), hname.1]
            simp only
            by_cases h3 : j - w.length - wn.length < wr.length
            · rw [List.take_append_of_le_length (by omega), hr'.2 _ h3]
            · rw [List.take_append, List.take_of_length_le (by omega), hr'.1]
              simp only
              rw [hs.2.1 _ (by obtain ⟨d, hd, rfl⟩ := hv; simp only [List.length_append] at hj ⊢; omega)]

/-- What is accepted and leaves something over begins with a representation. -/
theorem rep_of_step {t : Tab} {b : Nat} {x : List Nat} {s : DecStep} (h : decodeStep t b x = .ok s) (hr : s.rest ≠ []) :
    ∃ w k, Rep (b :: w) k ∧ x = w ++ s.rest := by
  rw [decodeStep_eq] at h
  by_cases h7 : b.testBit 7 = true
  · rw [if_pos h7] at h
    unfold decodeIndexed at h
    cases e : readInteger b 7 x with
    | error e' => simp [e, bind, Except.bind] at h
    | ok q =>
      obtain ⟨i, r⟩ := q
      obtain ⟨w, hw, hx⟩ := readInteger_inv (by decide) e
      refine ⟨w, 0, .indexed b h7 w i hw, ?_⟩
      simp only [e, bind, Except.bind] at h
      split at h
      · simp at h
      · split at h <;> (simp only [pure, Except.pure, Except.ok.injEq] at h; rw [← h]; exact hx)
  · rw [if_neg h7] at h
    have h7' : b.testBit 7 = false := by simpa using h7
    by_cases h6 : b.testBit 6 = true
    · rw [if_pos h6] at h
      unfold plainLiteral at h
      cases e : readInteger b 5 x with
      | error e' => simp [e, bind, Except.bind] at h
      | ok q =>
        obtain ⟨i, r⟩ := q
        simp only [e, bind, Except.bind] at h
        cases e2 : decodeName t i r with
        | error e' => simp [e2] at h
        | ok q2 =>
          obtain ⟨n, r2⟩ := q2
          simp only [e2] at h
          cases e3 : readLiteralString r2 with
          | error e' => simp [e3] at h
          | ok q3 =>
            obtain ⟨v, r3⟩ := q3
            simp only [e3, pure, Except.pure, Except.ok.injEq] at h
            subst h
            have hr2 : r2 ≠ [] := by rintro rfl; rw [readString_nil] at e3; simp at e3
            obtain ⟨w, hw, hx⟩ := readInteger_inv (by decide) e
            obtain ⟨wn, hn, hx2⟩ := decodeName_inv e2 hr2
            obtain ⟨wv, hv, hx3⟩ := readString_inv e3 hr
            refine ⟨_, _, .literal b h7' h6 w i hw wn hn wv v hv, ?_⟩
            rw [hx, hx2, hx3]; simp
    · rw [if_neg h6] at h
      have h6' : b.testBit 6 = false := by simpa using h6
      unfold substLiteral at h
      cases e : readInteger b 6 x with
      | error e' => simp [e, bind, Except.bind] at h
      | ok q =>
        obtain ⟨i, r⟩ := q
        simp only [e, bind, Except.bind] at h
        cases e2 : decodeName t i r with
        | error e' => simp [e2] at h
        | ok q2 =>
          obtain ⟨n, r2⟩ := q2
          simp only [e2] at h
          cases e4 : readInteger 0 0 r2 with
          | error e' => simp [e4] at h
          | ok q4 =>
          obtain ⟨ri, r4⟩ := q4
          simp only [e4] at h
          cases e3 : readLiteralString r4 with
          | error e' => simp [e3] at h
          | ok q3 =>
            obtain ⟨v, r3⟩ := q3
            simp only [e3] at h
            split at h
            · simp at h
            simp only [pure, Except.pure, Except.ok.injEq] at h
            subst h
            have hr4 : r4 ≠ [] := by rintro rfl; rw [readString_nil] at e3; simp at e3
            have hr2 : r2 ≠ [] := by
              rintro rfl
              rw [readInteger_unfold (by decide)] at e4
              simp [Nat.mod_one, readCont] at e4
            obtain ⟨w, hw, hx⟩ := readInteger_inv (by decide) e
            obtain ⟨wn, hn, hx2⟩ := decodeName_inv e2 hr2
            obtain ⟨wr, hwr, hx4⟩ := readInteger_inv (by decide) e4
            obtain ⟨wv, hv, hx3⟩ := readString_inv e3 hr
            refine ⟨_, _, .substitution b h7' h6' w i hw wn hn wr ri (intAfter_zero.1 hwr) wv v hv, ?_⟩
            rw [hx, hx2, hx4, hx3]; simp

/-! ### A header block -/

theorem steps_reps {t t' : Tab} {w : List Nat} {out : List Hdr} (h : Steps t w t' out) :
    ∃ reps : List (List Nat × Nat), (∀ r ∈ reps, Rep r.1 r.2) ∧ w = reps.flatMap (·.1) := by
  induction h with
  | nil => exact ⟨[], by simp, by simp⟩
  | @cons t b w0 t1 out1 w2 t2 out2 hstep _ ih =>
    obtain ⟨reps, h1, h2⟩ := ih
    obtain ⟨w, k, hrep, hw⟩ := rep_of_step (hstep [0]) (by simp)
    have : w0 = w := by simpa using hw
    subst this
    refine ⟨(b :: w0, k) :: reps, ?_, by simp [h2]⟩
    intro r hr
    rcases List.mem_cons.1 hr with rfl | hr
    · exact hrep
    · exact h1 r hr

theorem fairCut_cons {r : List Nat × Nat} {reps : List (List Nat × Nat)} {m : Nat} (h0 : 0 < m) : FairCut (r :: reps) m ↔
    (r.1.length - r.2 ≤ m ∧ m ≤ r.1.length) ∨ (r.1.length < m ∧ FairCut reps (m - r.1.length)) := by
  unfold FairCut
  constructor
  · rintro (h | ⟨a, q, b, k, hab, hk, hm⟩)
    · omega
    · cases a with
      | nil =>
        simp only [List.nil_append, List.cons.injEq] at hab
        obtain ⟨rfl, rfl⟩ := hab
        left
        simp only [List.flatMap_nil, List.length_nil] at hm
        omega
      | cons a0 a =>
        simp only [List.cons_append, List.cons.injEq] at hab
        obtain ⟨rfl, rfl⟩ := hab
        simp only [List.flatMap_cons, List.length_append] at hm
        by_cases hc : m = r.1.length
        · left; omega
        · right
          exact ⟨by omega, .inr ⟨a, q, b, k, rfl, hk, by omega⟩⟩
  · rintro (⟨h1, h2⟩ | ⟨h1, h2⟩)
    · exact .inr ⟨[], r, reps, r.1.length - m, rfl, by omega, by simp; omega⟩
    · rcases h2 with h2 | ⟨a, q, b, k, hab, hk, hm⟩
      · omega
      · exact .inr ⟨r :: a, q, b, k, by simp [hab], hk, by simp only [List.flatMap_cons, List.length_append]; omega⟩

theorem decodeLoop_cut : ∀ (reps : List (List Nat × Nat)), (∀ r ∈ reps, Rep r.1 r.2) →
    ∀ (t : Tab) (hs : List Hdr) (fuel : Nat) (out : List Hdr),
      (decodeLoop fuel t hs (reps.flatMap (·.1))).2 = .ok out →
    ∀ m fuel', m ≤ (reps.flatMap (·.1)).length → m ≤ fuel' →
      (FairCut reps m → ∃ out', (decodeLoop fuel' t hs ((reps.flatMap (·.1)).take m)).2 = .ok out') ∧
      (¬ FairCut reps m → (decodeLoop fuel' t hs ((reps.flatMap (·.1)).take m)).2 = .error .index) := by
  intro reps
  induction reps with
  | nil =>
    intro _ t hs fuel out _ m fuel' hm _
    have : m = 0 := by simpa using hm
    subst this
    exact ⟨fun _ => ⟨hs, by cases fuel' <;> simp [decodeLoop]⟩, fun h => absurd (Or.inl rfl) h⟩
  | cons r reps ih =>
    intro hrep t hs fuel out hok m fuel' hm hf
    have hr := hrep r (by simp)
    obtain ⟨c, k⟩ := r
    have hk : k < c.length := Rep.le hr
    cases c with
    | nil => simp at hk
    | cons b w =>
      cases fuel with
      | zero => simp [decodeLoop] at hok
      | succ fuel =>
        simp only [List.flatMap_cons, List.cons_append, decodeLoop] at hok
        by_cases hm0 : m = 0
        · subst hm0
          refine ⟨fun _ => ⟨hs, by cases fuel' <;> simp [decodeLoop]⟩, fun h => absurd (Or.inl rfl) h⟩
        · obtain ⟨m, rfl⟩ : ∃ m', m = m' + 1 := ⟨m - 1, by omega⟩
          obtain ⟨fuel', rfl⟩ : ∃ f, fuel' = f + 1 := ⟨fuel' - 1, by omega⟩
          cases hst : decodeStep t b (w ++ reps.flatMap (·.1)) with
          | error e => rw [hst] at hok; simp at hok
          | ok s =>
            obtain ⟨⟨t1, o1, hfull⟩, hcut, hbad⟩ := Rep.step hr hst
            rw [fairCut_cons (by omega)]
            simp only [List.flatMap_cons, List.cons_append, List.take_succ_cons, decodeLoop]
            simp only [List.flatMap_cons, List.length_append, List.length_cons] at hm hk ⊢
            by_cases h1 : m ≤ w.length
            · rw [List.take_append_of_le_length h1]
              constructor
              · rintro (⟨h2, -⟩ | ⟨h2, -⟩)
                · obtain ⟨t2, o2, e2⟩ := hcut m h1 (by omega)
                  rw [e2]
                  exact ⟨hs ++ o2, by cases fuel' <;> simp [decodeLoop]⟩
                · omega
              · intro h
                rw [hbad m (by by_contra hc; exact h (.inl ⟨by omega, by omega⟩))]
            · rw [List.take_append, List.take_of_length_le (by omega), hfull]
              rw [hfull] at hok
              have := ih (fun r hr => hrep r (by simp [hr])) t1 (hs ++ o1) fuel out hok (m - w.length) fuel' (by omega) (by omega)
              have e : m + 1 - (w.length + 1) = m - w.length := by omega
              rw [e]
              constructor
              · rintro (⟨h2, h3⟩ | ⟨h2, h3⟩)
                · omega
                · exact this.1 h3
              · intro h
                exact this.2 fun hc => h (.inr ⟨by omega, hc⟩)

theorem decodeHeaders_cut (t : Tab) (s : List Nat) (reps : List (List Nat × Nat)) (hrep : ∀ r ∈ reps, Rep r.1 r.2)
    (hs : s.drop 8 = reps.flatMap (·.1)) (out : List Hdr) (hok : (decodeHeaders t s).2 = .ok out) (n : Nat) (hn : n ≤ s.length) :
    (FairCut reps (n - 8) → ∃ out', (decodeHeaders t (s.take n)).2 = .ok out') ∧
    (¬ FairCut reps (n - 8) → (decodeHeaders t (s.take n)).2 = .error .index) := by
  unfold decodeHeaders at hok ⊢
  simp only at hok ⊢
  have hd : (s.take n).drop 8 = (reps.flatMap (·.1)).take (n - 8) := by rw [List.drop_take, hs]
  have hlen : s.length - 8 = (reps.flatMap (·.1)).length := by rw [← hs]; simp
  rw [hd]
  rw [hs] at hok
  generalize ht : ({ t with entries := resetEmitted t.entries } : Tab) = t0 at *
  cases e : decodeLoop (reps.flatMap (·.1)).length t0 [] (reps.flatMap (·.1)) with
  | mk t1 r1 =>
    rw [e] at hok
    cases r1 with
    | error e' => simp at hok
    | ok o1 =>
      have := decodeLoop_cut reps hrep t0 [] _ o1 (by rw [e]) (n - 8) ((reps.flatMap (·.1)).take (n - 8)).length (by omega)
        (by rw [List.length_take]; omega)
      constructor
      · intro h
        obtain ⟨o2, h2⟩ := this.1 h
        cases e2 : decodeLoop ((reps.flatMap (·.1)).take (n - 8)).length t0 [] ((reps.flatMap (·.1)).take (n - 8)) with
        | mk t2 r2 => rw [e2] at h2; simp only at h2; subst h2; exact ⟨_, rfl⟩
      · intro h
        have h2 := this.2 h
        cases e2 : decodeLoop ((reps.flatMap (·.1)).take (n - 8)).length t0 [] ((reps.flatMap (·.1)).take (n - 8)) with
        | mk t2 r2 => rw [e2] at h2; simp only at h2; subst h2; rfl

/-! ### There is only one way to read a header block -/

theorem int_unique {p b v v' : Nat} {w w' x x' : List Nat} (hp : p ≤ 8) (h : IntAfter p b w v) (h' : IntAfter p b w' v')
    (e : w ++ x = w' ++ x') : w = w' ∧ v = v' ∧ x = x' := by
  have h1 := (readInteger_after hp h).1 x
  rw [e, (readInteger_after hp h').1 x'] at h1
  simp only [Except.ok.injEq, Prod.mk.injEq] at h1
  obtain ⟨rfl, rfl⟩ := h1
  exact ⟨by simpa using e, rfl, rfl⟩

theorem string_unique {w w' x x' : List Nat} {s s' : Str} (h : StringLit w s) (h' : StringLit w' s')
    (e : w ++ x = w' ++ x') : w = w' ∧ s = s' ∧ x = x' := by
  have h1 := (readString_lit h).1 x
  rw [e, (readString_lit h').1 x'] at h1
  simp only [Except.ok.injEq, Prod.mk.injEq] at h1
  obtain ⟨rfl, rfl⟩ := h1
  exact ⟨by simpa using e, rfl, rfl⟩

theorem name_unique {i : Nat} {w w' x x' : List Nat} (h : NameLit i w) (h' : NameLit i w')
    (e : w ++ x = w' ++ x') : w = w' ∧ x = x' := by
  rcases h with ⟨hi, s, hs⟩ | ⟨hi, rfl⟩
  · rcases h' with ⟨_, s', hs'⟩ | ⟨hi', _⟩
    · obtain ⟨a, _, b⟩ := string_unique hs hs' e; exact ⟨a, b⟩
    · exact absurd hi hi'
  · rcases h' with ⟨hi', _⟩ | ⟨_, rfl⟩
    · exact absurd hi' hi
    · exact ⟨rfl, by simpa using e⟩

theorem rep_unique {c c' x x' : List Nat} {k k' : Nat} (h : Rep c k) (h' : Rep c' k') (e : c ++ x = c' ++ x') :
    c = c' ∧ k = k' ∧ x = x' := by
  cases h with
  | indexed b h7 w i hi =>
    cases h' with
    | indexed b' h7' w' i' hi' =>
      simp only [List.cons_append, List.cons.injEq] at e
      obtain ⟨rfl, e⟩ := e
      obtain ⟨rfl, _, rfl⟩ := int_unique (by decide) hi hi' e
      exact ⟨rfl, rfl, rfl⟩
    | literal b' h7' => simp only [List.cons_append, List.cons.injEq] at e; rw [e.1, h7'] at h7; simp at h7
    | substitution b' h7' => simp only [List.cons_append, List.cons.injEq] at e; rw [e.1, h7'] at h7; simp at h7
  | literal b h7 h6 w i hi wn hn wv v hv =>
    cases h' with
    | indexed b' h7' => simp only [List.cons_append, List.cons.injEq] at e; rw [e.1, h7'] at h7; simp at h7
    | literal b' h7' h6' w' i' hi' wn' hn' wv' v' hv' =>
      simp only [List.cons_append, List.cons.injEq, List.append_assoc] at e
      obtain ⟨rfl, e⟩ := e
      obtain ⟨rfl, rfl, e⟩ := int_unique (by decide) hi hi' e
      obtain ⟨rfl, e2⟩ := name_unique hn hn' e
      obtain ⟨rfl, rfl, rfl⟩ := string_unique hv hv' e2
      exact ⟨rfl, rfl, rfl⟩
    | substitution b' h7' h6' => simp only [List.cons_append, List.cons.injEq] at e; rw [e.1, h6'] at h6; simp at h6
  | substitution b h7 h6 w i hi wn hn wr r hr wv v hv =>
    cases h' with
    | indexed b' h7' => simp only [List.cons_append, List.cons.injEq] at e; rw [e.1, h7'] at h7; simp at h7
    | literal b' h7' h6' => simp only [List.cons_append, List.cons.injEq] at e; rw [e.1, h6'] at h6; simp at h6
    | substitution b' h7' h6' w' i' hi' wn' hn' wr' r' hr' wv' v' hv' =>
      simp only [List.cons_append, List.cons.injEq, List.append_assoc] at e
      obtain ⟨rfl, e⟩ := e
      obtain ⟨rfl, rfl, e⟩ := int_unique (by decide) hi hi' e
      obtain ⟨rfl, e2⟩ := name_unique hn hn' e
      obtain ⟨rfl, _, e3⟩ := int_unique (by decide) ((intAfter_zero (b := 0)).2 hr) (intAfter_zero.2 hr') e2
      obtain ⟨rfl, rfl, rfl⟩ := string_unique hv hv' e3
      exact ⟨rfl, rfl, rfl⟩

theorem reps_unique : ∀ (reps reps' : List (List Nat × Nat)), (∀ r ∈ reps, Rep r.1 r.2) → (∀ r ∈ reps', Rep r.1 r.2) →
    reps.flatMap (·.1) = reps'.flatMap (·.1) → reps = reps' := by
  intro reps
  induction reps with
  | nil =>
    intro reps' _ h' e
    cases reps' with
    | nil => rfl
    | cons r rs =>
      have := Rep.le (h' r (by simp))
      simp only [List.flatMap_nil, List.flatMap_cons] at e
      rw [(List.append_eq_nil_iff.1 e.symm).1] at this
      simp at this
  | cons r reps ih =>
    intro reps' h h' e
    cases reps' with
    | nil =>
      have := Rep.le (h r (by simp))
      simp only [List.flatMap_nil, List.flatMap_cons] at e
      rw [(List.append_eq_nil_iff.1 e).1] at this
      simp at this
    | cons r' rs =>
      simp only [List.flatMap_cons] at e
      obtain ⟨e1, e2, e3⟩ := rep_unique (h r (by simp)) (h' r' (by simp)) e
      rw [Prod.ext e1 e2, ih rs (fun r hr => h r (by simp [hr])) (fun r hr => h' r (by simp [hr])) e3]

/-! ### Sessions -/

theorem encodeAll_keeps {fuel : Nat} (ms : List (List Hdr)) : ∀ {t t' : Tab} {fs : List (List Nat)}, SizeOK t →
    (hdrs t.entries).Nodup → encodeAll fuel t ms = some (.ok (t', fs)) → SizeOK t' ∧ (hdrs t'.entries).Nodup := by
  induction ms with
  | nil =>
    intro t t' fs a b h
    simp only [encodeAll, Option.some.injEq, Except.ok.injEq, Prod.mk.injEq] at h
    rw [← h.1]; exact ⟨a, b⟩
  | cons m ms ih =>
    intro t t' fs a b h
    unfold encodeAll at h
    cases h1 : encodeHeaders fuel t m with
    | none => simp [h1] at h
    | some q =>
      obtain ⟨t1, r⟩ := q
      cases r with
      | error e => simp [h1] at h
      | ok f =>
        simp only [h1] at h
        cases h2 : encodeAll fuel t1 ms with
        | none => simp [h2] at h
        | some r =>
          cases r with
          | error e => simp [h2] at h
          | ok q =>
            simp only [h2, Option.some.injEq, Except.ok.injEq, Prod.mk.injEq] at h
            obtain ⟨c1, c2, _⟩ := encodeHeaders_inv a b h1
            have := ih c1 c2 h2
            rw [h.1] at this; exact this

end Verif.Http2
