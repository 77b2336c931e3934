import Verif.Http2.Reach
import Mathlib.Data.List.Forall2
/- Further facts used by the http2 properties: single-header messages, shortest integers,
prefixes of sessions. -/
namespace Verif.Http2
open Verif Spec

/-! ### Integers -/

theorem readCont_min (w : List Nat) : ∀ value shift x r, readCont value shift w = .ok (x, r) →
    ∃ u, x = value + u * 2 ^ shift ∧ (hpackTail u).length + r.length ≤ w.length := by
  induction w with
  | nil => intro value shift x r h; simp [readCont] at h
  | cons b w ih =>
    intro value shift x r h
    unfold readCont at h
    rw [and_7f, Nat.shiftLeft_eq] at h
    split at h
    · obtain ⟨u, h1, h2⟩ := ih _ _ _ _ h
      refine ⟨b % 128 + 128 * u, ?_, ?_⟩
      · rw [h1, Nat.pow_add]; ring
      · by_cases hlt : b % 128 + 128 * u < 128
        · rw [hpackTail_lt hlt]
          have := List.length_pos_iff.2 (hpackTail_ne_nil u)
          simp; omega
        · rw [hpackTail_ge hlt]
          have : (b % 128 + 128 * u) / 128 = u := by omega
          rw [this]; simp; omega
    · simp only [Except.ok.injEq, Prod.mk.injEq] at h
      obtain ⟨rfl, rfl⟩ := h
      exact ⟨b % 128, rfl, by rw [hpackTail_lt (by omega)]; simp; omega⟩

theorem readInteger_min {p : Nat} (hp : p ≤ 8) {b v : Nat} {w r : List Nat}
    (h : readInteger b p w = .ok (v, r)) (flags : Nat) :
    (hpackInt flags p v).length + r.length ≤ (if p = 0 then 0 else 1) + w.length := by
  unfold readInteger at h
  simp only [hp, if_true, maxValues_le8 hp, bind, Except.bind, pure, Except.pure,
    Nat.and_two_pow_sub_one_eq_mod] at h
  have hpos : 0 < 2 ^ p := Nat.pos_of_ne_zero (by simp)
  have hlt := Nat.mod_lt b hpos
  split at h
  · obtain ⟨u, h1, h2⟩ := readCont_min _ _ _ _ _ h
    rename_i heq
    unfold hpackInt
    have : ¬ v < 2 ^ p - 1 := by omega
    have hu : v - (2 ^ p - 1) = u := by rw [h1, heq]; simp
    rw [if_neg this, hu]
    by_cases h0 : p = 0 <;> simp [h0] <;> omega
  · rename_i hne
    simp only [Except.ok.injEq, Prod.mk.injEq] at h
    obtain ⟨rfl, rfl⟩ := h
    have hv : b % 2 ^ p < 2 ^ p - 1 := by omega
    have h0 : p ≠ 0 := by rintro rfl; simp at hv
    unfold hpackInt
    rw [if_pos hv]; simp [h0]

/-! ### Literals cut short -/

theorem readCont_cut (v : Nat) : ∀ value shift n, n < (hpackTail v).length →
    readCont value shift ((hpackTail v).take n) = .error .index := by
  induction v using Nat.strongRecOn with
  | _ v ih =>
    intro value shift n hn
    by_cases h : v < 128
    · rw [hpackTail_lt h] at hn ⊢
      simp at hn; subst hn; rfl
    · rw [hpackTail_ge h] at hn ⊢
      cases n with
      | zero => rfl
      | succ n =>
        have hb : (v % 128 + 128) &&& 0x80 > 0 := by rw [and_80 _ (by omega)]; omega
        rw [List.take_succ_cons]
        unfold readCont
        rw [if_pos hb]
        exact ih _ (by omega) _ _ n (by simpa using hn)

theorem readLiteralString_cut (s : Str) (n : Nat) :
    readLiteralString ((hpackTail s.length ++ s).take n) =
      if n < (hpackTail s.length).length then .error .index
      else .ok (s.take (n - (hpackTail s.length).length), []) := by
  by_cases h : n < (hpackTail s.length).length
  · rw [if_pos h, List.take_append_of_le_length (by omega)]
    have : readInteger 0 0 ((hpackTail s.length).take n) = .error .index := by
      unfold readInteger
      simp only [maxValues, bind, Except.bind, pure, Except.pure]
      simp [readCont_cut _ _ _ _ h]
    simp [readLiteralString, this, bind, Except.bind]
  · rw [if_neg h, List.take_append]
    rw [List.take_of_length_le (by omega)]
    unfold readLiteralString
    simp only [readInteger_zero, bind, Except.bind, pure, Except.pure]
    rw [List.take_take, List.drop_take]
    have h1 : min s.length (n - (hpackTail s.length).length) ≤ s.length := by omega
    by_cases h2 : n - (hpackTail s.length).length ≤ s.length
    · have : n - (hpackTail s.length).length - s.length = 0 := by omega
      simp [this, Nat.min_eq_right h2]
    · have : min s.length (n - (hpackTail s.length).length) = s.length := by omega
      rw [this]
      have h3 : List.drop s.length s = [] := by simp
      rw [h3, List.take_of_length_le (Nat.le_refl s.length),
        List.take_of_length_le (l := s) (i := n - (hpackTail s.length).length) (by omega)]
      simp

theorem literal_prefix (flags : Nat) (hflag : flags % 32 = 0) (t : Tab) (h : Hdr) :
    ∃ b w0, literalBytes flags t h = b :: w0 ++ (hpackTail h.2.length ++ h.2) ∧
      flags ≤ b ∧ b ≤ flags + 31 ∧ ∀ X, ∃ r1,
        readInteger b 5 (w0 ++ X) = .ok (idxPlusOne (findHeaderName t.entries h), r1) ∧
        decodeName (erase t) (idxPlusOne (findHeaderName t.entries h)) r1 = .ok (h.1, X) := by
  obtain ⟨b, w, hw, h1, h2, _⟩ := readInteger_pos (flags := flags) (p := 5)
    (v := idxPlusOne (findHeaderName t.entries h)) (by decide) (by decide) (by simpa using hflag) []
  refine ⟨b, w ++ nameBytes t h, ?_, h1, by simpa using h2, ?_⟩
  · unfold literalBytes; rw [hw]; simp
  · intro X
    refine ⟨_, ?_, decodeName_eq t h X⟩
    obtain ⟨b', w', hw', _, _, h3⟩ := readInteger_pos (flags := flags) (p := 5)
      (v := idxPlusOne (findHeaderName t.entries h)) (by decide) (by decide) (by simpa using hflag)
      (nameBytes t h ++ X)
    rw [hw] at hw'
    obtain ⟨rfl, rfl⟩ := List.cons.inj hw'
    rw [← h3]; simp only [List.append_assoc]

/-- The table a decoder gets from a literal for `h`. -/
def addLiteral (t : Tab) (h : Hdr) : Tab :=
  if h.1 = b!":path" then t else appendHeader t { header := h, referenced := true, emitted := true }

def literalFlag (h : Hdr) : Nat := if h.1 = b!":path" then 0x60 else 0x40

/-- A literal whose value is cut after `k` characters is accepted with the shortened value. -/
theorem decodeStep_cut (t : Tab) (h : Hdr) (k : Nat) (hk : k ≤ h.2.length) :
    ∃ b w, (literalBytes (literalFlag h) t h).take
        ((literalBytes (literalFlag h) t h).length - (h.2.length - k)) = b :: w ∧
      decodeStep (erase t) b w = .ok ⟨addLiteral (erase t) (h.1, h.2.take k), [(h.1, h.2.take k)], []⟩ := by
  obtain ⟨b, w0, hw, h1, h2, hX⟩ := literal_prefix (literalFlag h)
    (by unfold literalFlag; split <;> decide) t h
  refine ⟨b, w0 ++ (hpackTail h.2.length ++ h.2.take k), ?_, ?_⟩
  · rw [hw]
    have e1 : (b :: w0 ++ (hpackTail h.2.length ++ h.2)).length - (h.2.length - k) =
        (b :: w0).length + ((hpackTail h.2.length).length + k) := by simp; omega
    rw [e1, List.take_length_add_append, List.take_length_add_append]; simp
  · obtain ⟨r1, e1, e2⟩ := hX (hpackTail h.2.length ++ h.2.take k)
    have e3 : readLiteralString (hpackTail h.2.length ++ h.2.take k) = .ok (h.2.take k, []) := by
      have := readLiteralString_cut h.2 ((hpackTail h.2.length).length + k)
      rw [List.take_length_add_append] at this
      rw [this, if_neg (by omega)]
      have : (hpackTail h.2.length).length + k - (hpackTail h.2.length).length = k := by omega
      rw [this]
    unfold decodeStep decodeLiteral addLiteral
    by_cases hp : h.1 = b!":path"
    · simp only [literalFlag, hp, if_true] at h1 h2
      obtain ⟨a1, a2, a3⟩ := dec_60 b (by omega) (by omega)
      simp [a1, a2, a3, e1, e2, e3, hp, bind, Except.bind, pure, Except.pure]
    · simp only [literalFlag, hp, if_false] at h1 h2
      obtain ⟨a1, a2, a3⟩ := dec_40 b (by omega) (by omega)
      simp [a1, a2, a3, e1, e2, e3, hp, bind, Except.bind, pure, Except.pure]

/-! ### Messages with one new header -/

theorem encodeHeader_literal {t : Tab} {h : Hdr} (hout : h ∉ hdrs t.entries) :
    encodeHeader t h = .ok (addLiteral t h, literalBytes (literalFlag h) t h) := by
  unfold encodeHeader determineRepresentation addLiteral literalFlag
  rw [findHeader_none'.2 hout]
  by_cases hp : h.1 = b!":path"
  · simp only [hp, if_true]
    rw [writeLiteral_eq (by decide)]; rfl
  · simp only [hp, if_false]
    rw [writeLiteral_eq (by decide)]; rfl

theorem single_new {t : Tab} (hn : (hdrs t.entries).Nodup) {h : Hdr} (hout : h ∉ hdrs t.entries) :
    keptRefs t [h] = [] ∧ toSend t [h] = [h] := by
  obtain ⟨_, hperm, href⟩ := keptRefs_spec hn [h]
  have hk : keptRefs t [h] = [] := by
    cases hc : keptRefs t [h] with
    | nil => rfl
    | cons r l =>
      exfalso
      have hr : r ∈ keptRefs t [h] := by rw [hc]; simp
      obtain ⟨e, h1, h2, _⟩ := href r hr
      have : r ∈ [h] := hperm.mem_iff.1 (List.mem_append_left _ hr)
      simp at this; subst this
      exact hout (mem_hdrs.2 ⟨e, h1, h2⟩)
  rw [hk] at hperm
  exact ⟨hk, List.perm_singleton.1 (by simpa using hperm)⟩

theorem encodeBody_single {t : Tab} (hn : (hdrs t.entries).Nodup) {h : Hdr} (hout : h ∉ hdrs t.entries)
    (fuel : Nat) :
    ∃ w1, encodeBody (fuel + 1) t [h] = some (.ok (addLiteral (removedTab t [h]) h,
        w1 ++ literalBytes (literalFlag h) (removedTab t [h]) h)) ∧
      Steps { erase t with entries := resetEmitted (erase t).entries } w1 (erase (removedTab t [h])) [] := by
  obtain ⟨hk, hs⟩ := single_new hn hout
  obtain ⟨w1, e1, s1⟩ := encodeRemoved_steps (computeDiff t.entries [h]).removed (startTab t [h])
    (by unfold computeDiff; exact removedFrom_nodup _ _) (removed_valid hn [h])
  refine ⟨w1, ?_, by rw [← startTab_erase hn [h]]; exact s1⟩
  have hout' : h ∉ hdrs (removedTab t [h]).entries := by rw [removedTab_hdrs hn]; exact hout
  have e2 := encodeHeader_literal hout'
  unfold encodeBody
  dsimp only
  change encodeRemoved { t with entries := updateTable (computeDiff t.entries [h]).entries } _ = _ at e1
  rw [e1]; dsimp only
  change (computeDiff t.entries [h]).referenced = [] at hk
  change (computeDiff t.entries [h]).remaining = [h] at hs
  rw [hs, hk]
  have e3 : encodeList ((computeDiff t.entries [h]).removed.foldl unref (startTab t [h])) [h] =
      .ok (addLiteral (removedTab t [h]) h, literalBytes (literalFlag h) (removedTab t [h]) h) := by
    change encodeList (removedTab t [h]) [h] = _
    simp [encodeList, e2, bind, Except.bind, pure, Except.pure]
  rw [e3]
  simp [resendLoop]

/-- Cutting a single-literal frame inside its value. -/
theorem cut_frame {t t' : Tab} (hsz : SizeOK t) (hn : (hdrs t.entries).Nodup) {h : Hdr}
    (hout : h ∉ hdrs t.entries) {fuel : Nat} {f : List Nat}
    (he : encodeHeaders (fuel + 1) t [h] = some (t', .ok f)) (k : Nat) (hk : k ≤ h.2.length) :
    ∃ td, decodeHeaders (erase t) (f.take (f.length - (h.2.length - k))) = (td, .ok [(h.1, h.2.take k)]) := by
  obtain ⟨w1, hb, hst⟩ := encodeBody_single hn hout fuel
  simp only [encodeHeaders, hb, Option.some.injEq, Prod.mk.injEq] at he
  obtain ⟨_, hf⟩ := frame_ok he.2
  obtain ⟨b, w, hcut, hstep⟩ := decodeStep_cut (removedTab t [h]) h k hk
  have hlen : h.2.length ≤ (literalBytes (literalFlag h) (removedTab t [h]) h).length := by
    obtain ⟨b, w0, hw, _⟩ := literal_prefix (literalFlag h)
      (by unfold literalFlag; split <;> decide) (removedTab t [h]) h
    rw [hw]; simp; omega
  have hdrop : (f.take (f.length - (h.2.length - k))).drop 8 = w1 ++ (b :: w) := by
    rw [hf, ← hcut]
    generalize hL : literalBytes (literalFlag h) (removedTab t [h]) h = L at *
    generalize hP : [(w1 ++ L).length / 256, (w1 ++ L).length % 256, 0, 0, 0, 0, 0, 0] = P
    have hP8 : P.length = 8 := by rw [← hP]; rfl
    have e1 : (P ++ (w1 ++ L)).length - (h.2.length - k) =
        P.length + (w1.length + (L.length - (h.2.length - k))) := by
      simp only [List.length_append]; omega
    rw [e1, List.take_length_add_append, List.take_length_add_append, List.drop_append_of_le_length (by omega)]
    rw [← hP8]; simp
  unfold decodeHeaders
  simp only [hdrop]
  obtain ⟨f', hf', hrun⟩ := hst.run (w1 ++ b :: w).length [] (b :: w) (Nat.le_refl _)
  rw [hrun]
  cases f' with
  | zero => simp at hf'
  | succ f' =>
    unfold decodeLoop
    rw [hstep]
    simp only [List.nil_append]
    have hnil : ∀ t hs, decodeLoop f' t hs [] = (t, .ok hs) := by intro t hs; cases f' <;> rfl
    rw [hnil]
    simp only
    refine ⟨_, by
      congr 2
      have hrem0 : ∀ e ∈ (erase (removedTab t [h])).entries, e.referenced = false := by
        intro e he
        simp only [erase, List.mem_map] at he
        obtain ⟨e0, h0, rfl⟩ := he
        have hinv := removedTab_inv hsz hn [h]
        by_contra hc
        have hc' : e0.referenced = true := by simpa using hc
        by_cases hm : e0.emitted = true
        · have := hinv.sent e0 h0 hm; simp at this
        · have := hinv.silent e0 h0 hc' (by simpa using hm)
          rw [(single_new hn hout).1] at this; simp at this
      have hrem : remainingHeaders (addLiteral (erase (removedTab t [h])) (h.1, h.2.take k)).entries = [] := by
        unfold remainingHeaders
        rw [List.map_eq_nil_iff, List.filter_eq_nil_iff]
        intro e he
        unfold addLiteral at he
        have hsz' : SizeOK (erase (removedTab t [h])) := by
          have := (removedTab_inv hsz hn [h]).size
          unfold SizeOK erase hdrs at *
          simpa [Function.comp_def] using this
        split at he
        · simp [hrem0 e he]
        · obtain ⟨j, hj, _⟩ := appendHeader_spec hsz' { header := (h.1, h.2.take k), referenced := true, emitted := true }
          rcases hj with ⟨hj, _⟩ | ⟨hj, _⟩
          · rw [hj] at he
            rcases List.mem_append.1 he with h1 | h1
            · simp [hrem0 e (List.mem_of_mem_drop h1)]
            · simp at h1; subst h1; simp
          · rw [hj] at he; simp at he
      rw [hrem]; simp⟩

/-! ### Sessions -/

theorem encodeAll_take {fuel : Nat} (ms : List (List Hdr)) : ∀ {t t' : Tab} {fs : List (List Nat)} (n : Nat),
    encodeAll fuel t ms = some (.ok (t', fs)) →
    ∃ tn, encodeAll fuel t (ms.take n) = some (.ok (tn, fs.take n)) := by
  induction ms with
  | nil =>
    intro t t' fs n h
    simp only [encodeAll, Option.some.injEq, Except.ok.injEq, Prod.mk.injEq] at h
    obtain ⟨rfl, rfl⟩ := h
    exact ⟨t, by simp [encodeAll]⟩
  | cons m ms ih =>
    intro t t' fs n h
    unfold encodeAll at h
    cases h1 : encodeHeaders fuel t m with
    | none => simp [h1] at h
    | some q =>
      obtain ⟨t1, r⟩ := q
      cases r with
      | error e => simp [h1] at h
      | ok f =>
        simp only [h1] at h
        cases h2 : encodeAll fuel t1 ms with
        | none => simp [h2] at h
        | some r =>
          cases r with
          | error e => simp [h2] at h
          | ok q =>
            obtain ⟨t2, fs2⟩ := q
            simp only [h2, Option.some.injEq, Except.ok.injEq, Prod.mk.injEq] at h
            obtain ⟨rfl, rfl⟩ := h
            cases n with
            | zero => exact ⟨t, by simp [encodeAll]⟩
            | succ n =>
              obtain ⟨tn, h3⟩ := ih n h2
              exact ⟨tn, by simp [encodeAll, h1, h3]⟩

end Verif.Http2
