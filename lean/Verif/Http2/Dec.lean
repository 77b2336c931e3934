import Verif.Http2.Inv
/- The decoder on arbitrary bytes. -/
namespace Verif.Http2
open Verif Spec

/-! ### Reading -/

theorem readCont_cases (rest : List Nat) : ∀ value shift,
    readCont value shift rest = .error .index ∨
    ∃ v r, readCont value shift rest = .ok (v, r) ∧ r.length < rest.length := by
  induction rest with
  | nil => intro value shift; left; rfl
  | cons b rest ih =>
    intro value shift
    unfold readCont
    split
    · rcases ih (value + ((b &&& 0x7f) <<< shift)) (shift + 7) with h | ⟨v, r, h, hl⟩
      · left; exact h
      · right; exact ⟨v, r, h, by simp; omega⟩
    · right; exact ⟨_, _, rfl, by simp⟩

theorem readInteger_cases {p : Nat} (hp : p ≤ 8) (byte : Nat) (rest : List Nat) :
    readInteger byte p rest = .error .index ∨
    ∃ v r, readInteger byte p rest = .ok (v, r) ∧ r.length ≤ rest.length := by
  unfold readInteger
  simp only [hp, if_true, maxValues_le8 hp, bind, Except.bind, pure, Except.pure]
  split
  · rcases readCont_cases rest (byte &&& (2 ^ p - 1)) 0 with h | ⟨v, r, h, hl⟩
    · left; exact h
    · right; exact ⟨v, r, h, by omega⟩
  · right; exact ⟨_, _, rfl, by simp⟩

theorem readLiteralString_cases (rest : List Nat) :
    readLiteralString rest = .error .index ∨
    ∃ v r, readLiteralString rest = .ok (v, r) ∧ r.length ≤ rest.length := by
  unfold readLiteralString
  rcases readInteger_cases (p := 0) (by decide) 0 rest with h | ⟨v, r, h, hl⟩
  · left; simp [h, bind, Except.bind]
  · right; exact ⟨r.take v, r.drop v, by simp [h, bind, Except.bind, pure, Except.pure], by simp; omega⟩

theorem decodeName_cases (t : Tab) (n : Nat) (rest : List Nat) :
    decodeName t n rest = .error .index ∨
    ∃ v r, decodeName t n rest = .ok (v, r) ∧ r.length ≤ rest.length := by
  unfold decodeName
  split
  · exact readLiteralString_cases rest
  · split
    · left; rfl
    · right; exact ⟨_, _, rfl, by simp⟩

theorem insertHeader_cases (t : Tab) (e : HeaderEntry) (i : Nat) :
    insertHeader t e i = .error .index ∨ ∃ t', insertHeader t e i = .ok t' := by
  unfold insertHeader
  split
  · left; rfl
  · right; dsimp only; split <;> exact ⟨_, rfl⟩

theorem decode_bits : ∀ b, b < 256 → (b &&& 0x80) = 0 → (b &&& 0xC0) ≠ 0 →
    (b &&& 0xE0) = 0x60 ∨ (b &&& 0xE0) = 0x40 := by decide +kernel

/-- How one representation changes the table. -/
inductive TabStep (t : Tab) : Tab → Prop
  | same : TabStep t t
  | flags (i : Nat) (e e' : HeaderEntry) : t.entries[i]? = some e → e'.header = e.header →
      TabStep t { t with entries := t.entries.set i e' }
  | append (e : HeaderEntry) : TabStep t (appendHeader t e)
  | insert (e : HeaderEntry) (i : Nat) (t' : Tab) : insertHeader t e i = .ok t' → TabStep t t'

theorem decodeStep_cases (t : Tab) {byte : Nat} (hb : byte < 256) (rest : List Nat) :
    decodeStep t byte rest = .error .index ∨
    ∃ s, decodeStep t byte rest = .ok s ∧ s.rest.length ≤ rest.length ∧ s.out.length ≤ 1 ∧
      TabStep t s.tab := by
  unfold decodeStep
  by_cases h80 : byte &&& 0x80 ≠ 0
  · rw [if_pos h80]
    unfold decodeIndexed
    rcases readInteger_cases (p := 7) (by decide) byte rest with h | ⟨v, r, h, hl⟩
    · left; simp [h, bind, Except.bind]
    · simp only [h, bind, Except.bind]
      cases hv : t.entries[v]? with
      | none => left; rfl
      | some e =>
        right
        cases hr : e.referenced
        · exact ⟨_, by simp [hr, pure, Except.pure]; rfl, hl, by simp,
            TabStep.flags v e { e with referenced := true, emitted := true } hv rfl⟩
        · exact ⟨_, by simp [hr, pure, Except.pure]; rfl, hl, by simp,
            TabStep.flags v e { e with referenced := false, emitted := false } hv rfl⟩
  · rw [if_neg h80]
    simp only [ne_eq, Decidable.not_not] at h80
    unfold decodeLiteral
    by_cases hC : byte &&& 0xC0 = 0
    · rw [if_pos hC]
      rcases readInteger_cases (p := 6) (by decide) byte rest with h | ⟨v, r, h, hl⟩
      · left; simp [h, bind, Except.bind]
      simp only [h, bind, Except.bind]
      rcases decodeName_cases t v r with h1 | ⟨nm, r1, h1, hl1⟩
      · left; simp [h1]
      simp only [h1]
      rcases readInteger_cases (p := 0) (by decide) 0 r1 with h2 | ⟨ri, r2, h2, hl2⟩
      · left; simp [h2]
      simp only [h2]
      rcases readLiteralString_cases r2 with h3 | ⟨vl, r3, h3, hl3⟩
      · left; simp [h3]
      simp only [h3]
      rcases insertHeader_cases t { header := (nm, vl), referenced := true, emitted := true } ri with h4 | ⟨t', h4⟩
      · left; simp [h4]
      · right
        simp only [h4]
        exact ⟨_, rfl, by simp only; omega, by simp, TabStep.insert _ _ _ h4⟩
    · rw [if_neg hC]
      rcases readInteger_cases (p := 5) (by decide) byte rest with h | ⟨v, r, h, hl⟩
      · left
        rcases decode_bits byte hb h80 hC with hE | hE
        · simp [hE, h, bind, Except.bind]
        · simp [hE, h, bind, Except.bind]
      rcases decodeName_cases t v r with h1 | ⟨nm, r1, h1, hl1⟩
      · left
        rcases decode_bits byte hb h80 hC with hE | hE
        · simp [hE, h, h1, bind, Except.bind]
        · simp [hE, h, h1, bind, Except.bind]
      rcases readLiteralString_cases r1 with h3 | ⟨vl, r3, h3, hl3⟩
      · left
        rcases decode_bits byte hb h80 hC with hE | hE
        · simp [hE, h, h1, h3, bind, Except.bind]
        · simp [hE, h, h1, h3, bind, Except.bind]
      right
      rcases decode_bits byte hb h80 hC with hE | hE
      · exact ⟨_, by simp [hE, h, h1, h3, bind, Except.bind, pure, Except.pure]; rfl, by simp only; omega,
          by simp, TabStep.same⟩
      · exact ⟨_, by simp [hE, h, h1, h3, bind, Except.bind, pure, Except.pure]; rfl, by simp only; omega,
          by simp, TabStep.append _⟩

/-- The unread bytes are a suffix of what was there. -/
theorem readCont_suffix (rest : List Nat) : ∀ value shift v r,
    readCont value shift rest = .ok (v, r) → r <:+ rest := by
  induction rest with
  | nil => intro value shift v r h; simp [readCont] at h
  | cons b rest ih =>
    intro value shift v r h
    unfold readCont at h
    split at h
    · exact (ih _ _ _ _ h).trans (List.suffix_cons _ _)
    · simp only [Except.ok.injEq, Prod.mk.injEq] at h
      rw [← h.2]; exact List.suffix_cons _ _

theorem readInteger_suffix {p : Nat} (hp : p ≤ 8) {byte : Nat} {rest : List Nat} {v r}
    (h : readInteger byte p rest = .ok (v, r)) : r <:+ rest := by
  unfold readInteger at h
  simp only [hp, if_true, maxValues_le8 hp, bind, Except.bind, pure, Except.pure] at h
  split at h
  · exact readCont_suffix _ _ _ _ _ h
  · simp only [Except.ok.injEq, Prod.mk.injEq] at h
    rw [← h.2]; exact List.suffix_refl _

theorem readLiteralString_suffix {rest : List Nat} {v r}
    (h : readLiteralString rest = .ok (v, r)) : r <:+ rest := by
  unfold readLiteralString at h
  rcases readInteger_cases (p := 0) (by decide) 0 rest with h1 | ⟨n, r1, h1, _⟩
  · simp [h1, bind, Except.bind] at h
  · simp only [h1, bind, Except.bind, pure, Except.pure, Except.ok.injEq, Prod.mk.injEq] at h
    rw [← h.2]
    exact (List.drop_suffix _ _).trans (readInteger_suffix (by decide) h1)

theorem decodeName_suffix {t : Tab} {n : Nat} {rest : List Nat} {v r}
    (h : decodeName t n rest = .ok (v, r)) : r <:+ rest := by
  unfold decodeName at h
  split at h
  · exact readLiteralString_suffix h
  · split at h
    · cases h
    · simp only [Except.ok.injEq, Prod.mk.injEq] at h
      rw [← h.2]; exact List.suffix_refl _

theorem decodeStep_suffix {t : Tab} {byte : Nat} {rest : List Nat} {s : DecStep}
    (h : decodeStep t byte rest = .ok s) : s.rest <:+ rest := by
  unfold decodeStep at h
  split at h
  · unfold decodeIndexed at h
    cases h1 : readInteger byte 7 rest with
    | error e => simp [h1, bind, Except.bind] at h
    | ok q =>
      simp only [h1, bind, Except.bind] at h
      have := readInteger_suffix (by decide) h1
      split at h
      · cases h
      · split at h
        · simp only [pure, Except.pure, Except.ok.injEq] at h; subst h; exact this
        · simp only [pure, Except.pure, Except.ok.injEq] at h; subst h; exact this
  · unfold decodeLiteral at h
    split at h
    · cases h1 : readInteger byte 6 rest with
      | error e => simp [h1, bind, Except.bind] at h
      | ok q1 =>
        simp only [h1, bind, Except.bind] at h
        cases h2 : decodeName t q1.1 q1.2 with
        | error e => simp [h2] at h
        | ok q2 =>
          simp only [h2] at h
          cases h3 : readInteger 0 0 q2.2 with
          | error e => simp [h3] at h
          | ok q3 =>
            simp only [h3] at h
            cases h4 : readLiteralString q3.2 with
            | error e => simp [h4] at h
            | ok q4 =>
              simp only [h4] at h
              split at h
              · cases h
              · simp only [pure, Except.pure, Except.ok.injEq] at h; subst h
                exact (readLiteralString_suffix h4).trans ((readInteger_suffix (by decide) h3).trans
                  ((decodeName_suffix h2).trans (readInteger_suffix (by decide) h1)))
    · split at h
      · cases h1 : readInteger byte 5 rest with
        | error e => simp [h1, bind, Except.bind] at h
        | ok q1 =>
          simp only [h1, bind, Except.bind] at h
          cases h2 : decodeName t q1.1 q1.2 with
          | error e => simp [h2] at h
          | ok q2 =>
            simp only [h2] at h
            cases h4 : readLiteralString q2.2 with
            | error e => simp [h4] at h
            | ok q4 =>
              simp only [h4, pure, Except.pure, Except.ok.injEq] at h; subst h
              exact (readLiteralString_suffix h4).trans
                ((decodeName_suffix h2).trans (readInteger_suffix (by decide) h1))
      · split at h
        · cases h1 : readInteger byte 5 rest with
          | error e => simp [h1, bind, Except.bind] at h
          | ok q1 =>
            simp only [h1, bind, Except.bind] at h
            cases h2 : decodeName t q1.1 q1.2 with
            | error e => simp [h2] at h
            | ok q2 =>
              simp only [h2] at h
              cases h4 : readLiteralString q2.2 with
              | error e => simp [h4] at h
              | ok q4 =>
                simp only [h4, pure, Except.pure, Except.ok.injEq] at h; subst h
                exact (readLiteralString_suffix h4).trans
                  ((decodeName_suffix h2).trans (readInteger_suffix (by decide) h1))
        · cases h

theorem decodeLoop_cases : ∀ fuel (t : Tab) (hs : List Hdr) (rest : List Nat),
    (∀ b ∈ rest, b < 256) → rest.length ≤ fuel →
    (decodeLoop fuel t hs rest).2 = .error .index ∨
    ∃ out, (decodeLoop fuel t hs rest).2 = .ok out ∧ out.length ≤ hs.length + rest.length := by
  intro fuel
  induction fuel with
  | zero =>
    intro t hs rest _ hlen
    have : rest = [] := List.length_eq_zero_iff.1 (by omega)
    subst this
    right; exact ⟨hs, rfl, by simp⟩
  | succ n ih =>
    intro t hs rest hbytes hlen
    cases rest with
    | nil => right; exact ⟨hs, rfl, by simp⟩
    | cons b rest =>
      unfold decodeLoop
      rcases decodeStep_cases t (hbytes b (by simp)) rest with h | ⟨s, h, hl, ho, _⟩
      · left; rw [h]
      · rw [h]; dsimp only
        have hsuf := decodeStep_suffix h
        rcases ih s.tab (hs ++ s.out) s.rest
          (fun x hx => hbytes x (List.mem_cons_of_mem _ (hsuf.subset hx))) (by simp at hlen; omega) with h1 | ⟨out, h1, h2⟩
        · left; exact h1
        · right; exact ⟨out, h1, by simp at h2 ⊢; omega⟩

/-! ### Table size under arbitrary input -/

theorem insertEvict_spec (max rs : Int) (es : List HeaderEntry) : ∀ (tsize size index : Int),
    ∃ k, k ≤ es.length ∧
      insertEvict max rs tsize size index es =
        (tsize - hdrsSize (hdrs (es.take k)), size + (if 0 ≤ index ∧ index < k then rs else 0), index - k,
          es.drop k) ∧
      (tsize - hdrsSize (hdrs (es.take k)) + (size + (if 0 ≤ index ∧ index < k then rs else 0)) ≤ max
        ∨ es.drop k = []) ∧
      ∀ j, j < k → tsize - hdrsSize (hdrs (es.take j)) + (size + (if 0 ≤ index ∧ index < j then rs else 0)) > max := by
  induction es with
  | nil =>
    intro tsize size index
    refine ⟨0, by simp, ?_, by simp, by simp⟩
    have : ¬ (0 ≤ index ∧ index < ((0 : Nat) : Int)) := by omega
    rw [if_neg this]; simp [insertEvict]
  | cons e es ih =>
    intro tsize size index
    unfold insertEvict
    have h0 : ¬ (0 ≤ index ∧ index < ((0 : Nat) : Int)) := by omega
    by_cases h : tsize + size > max
    · rw [if_pos h]
      obtain ⟨k, hk, h1, h2, h3⟩ := ih (tsize - entryLen e.header)
        (if index - 1 = -1 then size + rs else size) (index - 1)
      have hsz : ∀ k : Nat, (if index - 1 = -1 then size + rs else size) +
          (if 0 ≤ index - 1 ∧ index - 1 < (k : Int) then rs else 0) =
          size + (if 0 ≤ index ∧ index < ((k + 1 : Nat) : Int) then rs else 0) := by
        intro k
        by_cases ha : index - 1 = -1
        · have hb : ¬ (0 ≤ index - 1 ∧ index - 1 < (k : Int)) := by omega
          have hc : 0 ≤ index ∧ index < ((k + 1 : Nat) : Int) := by omega
          rw [if_pos ha, if_neg hb, if_pos hc]; omega
        · rw [if_neg ha]
          by_cases hb : 0 ≤ index - 1 ∧ index - 1 < (k : Int)
          · have hc : 0 ≤ index ∧ index < ((k + 1 : Nat) : Int) := by omega
            rw [if_pos hb, if_pos hc]
          · have hc : ¬ (0 ≤ index ∧ index < ((k + 1 : Nat) : Int)) := by omega
            rw [if_neg hb, if_neg hc]
      have htk : ∀ k : Nat, tsize - entryLen e.header - hdrsSize (hdrs (es.take k)) =
          tsize - hdrsSize (hdrs ((e :: es).take (k + 1))) := by
        intro k; simp [entryLen_eq]; omega
      refine ⟨k + 1, by simpa using hk, ?_, ?_, ?_⟩
      · rw [h1, hsz, htk]
        simp only [List.drop_succ_cons, Prod.mk.injEq, true_and, and_true]
        omega
      · rw [hsz, htk] at h2
        simpa using h2
      · intro j hj
        cases j with
        | zero => rw [if_neg h0]; simp; omega
        | succ j =>
          have := h3 j (by omega)
          rw [hsz, htk] at this; exact this
    · rw [if_neg h]
      refine ⟨0, by simp, ?_, ?_, by simp⟩
      · rw [if_neg h0]; simp
      · rw [if_neg h0]; left; simp; omega

theorem hdrsSize_set {es : List HeaderEntry} {i : Nat} {e0 : HeaderEntry} (h : es[i]? = some e0)
    (e : HeaderEntry) :
    hdrsSize (hdrs (es.set i e)) + hdrSize e0.header = hdrsSize (hdrs es) + hdrSize e.header := by
  induction es generalizing i with
  | nil => simp at h
  | cons a es ih =>
    cases i with
    | zero => simp at h; subst h; simp; omega
    | succ i =>
      simp at h
      have := ih h
      simp; omega

theorem hdrsSize_take_drop (es : List HeaderEntry) (k : Nat) :
    hdrsSize (hdrs (es.take k)) + hdrsSize (hdrs (es.drop k)) = hdrsSize (hdrs es) := by
  rw [← hdrsSize_append, ← hdrs_append, List.take_append_drop]

/-- Sizes involved in a substitution that has evicted `k` entries. -/
def needAfter (t : Tab) (e old : HeaderEntry) (i k : Nat) : Int :=
  (hdrsSize (hdrs (t.entries.drop k)) : Int) + hdrSize e.header - (if i < k then 0 else hdrSize old.header)

/-- Complete description of `insert_decoded_header` on a consistent table. -/
theorem insertHeader_spec {t : Tab} (hs : SizeOK t) (e : HeaderEntry) {i : Nat} {old : HeaderEntry}
    (hi : t.entries[i]? = some old) :
    ∃ t' k, insertHeader t e i = .ok t' ∧ t'.max = t.max ∧ SizeOK t' ∧
      (∀ j, j < k → t.max < needAfter t e old i j) ∧
      ((k ≤ i ∧ needAfter t e old i k ≤ t.max ∧ t'.size = needAfter t e old i k ∧
          t'.entries = (t.entries.drop k).set (i - k) e) ∨
       (i < k ∧ k ≤ t.entries.length ∧ needAfter t e old i k ≤ t.max ∧ t'.size = needAfter t e old i k ∧
          t'.entries = (t.entries.drop k).take ((t.entries.drop k).length - (k - i)) ++
            e :: (t.entries.drop k).drop ((t.entries.drop k).length - (k - i))) ∨
       (k = t.entries.length ∧ t.max < needAfter t e old i k ∧ t'.entries = [] ∧ t'.size = 0)) := by
  obtain ⟨hilt, _⟩ := List.getElem?_eq_some_iff.1 hi
  obtain ⟨k, hk, h1, h2, h3⟩ := insertEvict_spec t.max (entryLen old.header) t.entries t.size
    (entryLen e.header - entryLen old.header) i
  have htd := fun k => hdrsSize_take_drop t.entries k
  have hneed : ∀ k : Nat, t.size - hdrsSize (hdrs (t.entries.take k)) +
      ((entryLen e.header : Int) - entryLen old.header +
        (if 0 ≤ (i : Int) ∧ (i : Int) < (k : Int) then (entryLen old.header : Int) else 0)) =
      needAfter t e old i k := by
    intro k
    have := htd k
    unfold needAfter
    rw [hs, entryLen_eq, entryLen_eq]
    by_cases hik : i < k
    · have : 0 ≤ (i : Int) ∧ (i : Int) < (k : Int) := by omega
      rw [if_pos this, if_pos hik]; omega
    · have : ¬ (0 ≤ (i : Int) ∧ (i : Int) < (k : Int)) := by omega
      rw [if_neg this, if_neg hik]; omega
  have h3' : ∀ j, j < k → t.max < needAfter t e old i j := by
    intro j hj; have := h3 j hj; rw [hneed] at this; exact this
  unfold insertHeader
  simp only [hi, h1]
  by_cases hfit : needAfter t e old i k ≤ t.max
  · simp only [hneed, hfit, if_true]
    refine ⟨_, k, rfl, rfl, ?_, h3', ?_⟩
    · unfold SizeOK
      by_cases hik : i < k
      · have hneg : ¬ (0 : Int) ≤ (i : Int) - (k : Int) := by omega
        simp only [hneg, if_false]
        unfold needAfter
        rw [if_pos hik]
        unfold pyInsert
        have hp : (i : Int) - (k : Int) < 0 := by omega
        simp only [hp, if_true]
        rw [hdrs_append, hdrs_cons, hdrsSize_append, hdrsSize_cons]
        have := hdrsSize_take_drop (t.entries.drop k) (((t.entries.drop k).length : Int) + ((i : Int) - k)).toNat
        omega
      · have hpos : (0 : Int) ≤ (i : Int) - (k : Int) := by omega
        simp only [hpos, if_true]
        have htn : ((i : Int) - (k : Int)).toNat = i - k := by omega
        rw [htn]
        have hget : (t.entries.drop k)[i - k]? = some old := by
          rw [List.getElem?_drop]
          have : k + (i - k) = i := by omega
          rw [this]; exact hi
        have := hdrsSize_set hget e
        unfold needAfter
        rw [if_neg hik]
        omega
    · by_cases hik : i < k
      · right; left
        refine ⟨hik, hk, hfit, rfl, ?_⟩
        have hneg : ¬ (0 : Int) ≤ (i : Int) - (k : Int) := by omega
        simp only [hneg, if_false]
        unfold pyInsert
        have hp : (i : Int) - (k : Int) < 0 := by omega
        simp only [hp, if_true]
        have : (((t.entries.drop k).length : Int) + ((i : Int) - k)).toNat =
            (t.entries.drop k).length - (k - i) := by omega
        rw [this]
      · left
        refine ⟨by omega, hfit, rfl, ?_⟩
        have hpos : (0 : Int) ≤ (i : Int) - (k : Int) := by omega
        simp only [hpos, if_true]
        have htn : ((i : Int) - (k : Int)).toNat = i - k := by omega
        rw [htn]
  · simp only [hneed, hfit, if_false]
    rw [hneed] at h2
    rcases h2 with h2 | h2
    · exact absurd h2 hfit
    · have hlen : k = t.entries.length := by
        have := List.length_eq_zero_iff.2 h2
        simp at this; omega
      have hz : t.size - hdrsSize (hdrs (t.entries.take k)) = 0 := by
        have := htd k
        rw [hs]; rw [h2] at this; simp at this; omega
      refine ⟨_, k, rfl, rfl, ?_, h3', Or.inr (Or.inr ⟨hlen, by omega, h2, hz⟩)⟩
      unfold SizeOK
      simp only [hz, h2]; rfl

theorem TabStep.sizeOK {t t' : Tab} (hs : SizeOK t) (h : TabStep t t') :
    SizeOK t' ∧ t'.max = t.max ∧ (t.size ≤ t.max → t'.size ≤ t'.max) := by
  cases h with
  | same => exact ⟨hs, rfl, id⟩
  | flags i e e' he hh =>
    refine ⟨?_, rfl, id⟩
    unfold SizeOK at *
    rw [hs]; dsimp only; rw [hdrs_set he hh]
  | append e =>
    obtain ⟨k, hk, h2, h3⟩ := appendHeader_spec hs e
    refine ⟨h2, h3, fun hle => ?_⟩
    rw [h3]
    rcases hk with ⟨_, h4⟩ | ⟨h4, _⟩
    · exact h4
    · have : (appendHeader t e).size = 0 := by rw [h2, h4]; rfl
      have h5 : t.size = hdrsSize (hdrs t.entries) := hs
      omega
  | insert e i _ hins =>
    cases hi : t.entries[i]? with
    | none => simp [insertHeader, hi] at hins
    | some old =>
      obtain ⟨t2, k, h1, h2, h3, _, h5⟩ := insertHeader_spec hs e hi
      rw [h1] at hins
      cases hins
      refine ⟨h3, h2, fun hle => ?_⟩
      rw [h2]
      have h6 : t.size = hdrsSize (hdrs t.entries) := hs
      rcases h5 with ⟨_, h7, h8, _⟩ | ⟨_, _, h7, h8, _⟩ | ⟨_, _, _, h8⟩ <;> omega

theorem decodeLoop_sizeOK : ∀ fuel (t : Tab) (hs : List Hdr) (rest : List Nat),
    (∀ b ∈ rest, b < 256) → SizeOK t →
    SizeOK (decodeLoop fuel t hs rest).1 ∧ (decodeLoop fuel t hs rest).1.max = t.max ∧
      (t.size ≤ t.max → (decodeLoop fuel t hs rest).1.size ≤ t.max) := by
  intro fuel
  induction fuel with
  | zero =>
    intro t hs rest _ h
    cases rest <;> exact ⟨h, rfl, id⟩
  | succ n ih =>
    intro t hs rest hbytes h
    cases rest with
    | nil => exact ⟨h, rfl, id⟩
    | cons b rest =>
      unfold decodeLoop
      rcases decodeStep_cases t (hbytes b (by simp)) rest with h1 | ⟨s, h1, _, _, hts⟩
      · rw [h1]; exact ⟨h, rfl, id⟩
      · rw [h1]; dsimp only
        obtain ⟨a1, a2, a3⟩ := hts.sizeOK h
        have hsuf := decodeStep_suffix h1
        obtain ⟨b1, b2, b3⟩ := ih s.tab (hs ++ s.out) s.rest
          (fun x hx => hbytes x (List.mem_cons_of_mem _ (hsuf.subset hx))) a1
        exact ⟨b1, b2.trans a2, fun hle => by rw [← a2]; exact b3 (a3 hle)⟩

end Verif.Http2
