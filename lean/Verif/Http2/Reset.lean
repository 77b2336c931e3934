import Verif.Http2.More
/-
A header that is larger than the buffer empties the tables, whatever they were.
-/
namespace Verif.Http2
open Verif Spec

theorem append_big {t : Tab} (hs : SizeOK t) {e : HeaderEntry} (hb : t.max < hdrSize e.header) :
    appendHeader t e = { t with entries := [], size := 0 } := by
  obtain ⟨k, hk, hor⟩ := evict_spec t.max (entryLen e.header) t.entries t.size hs
  have hnil : t.entries.drop k = [] := by
    rcases hor with h | h
    · rw [entryLen_eq] at h
      have : (0 : Int) ≤ hdrsSize (hdrs (t.entries.drop k)) := Int.natCast_nonneg _
      omega
    · exact h
  unfold appendHeader
  simp only [hk, hnil, hdrs_nil, hdrsSize_nil]
  rw [if_neg (by rw [entryLen_eq]; push_cast; omega)]
  rfl

/-- The encoder of a message of one header that is too large: it sends the removals and the header. -/
theorem encode_big {t t' : Tab} (hs : SizeOK t) (hn : (hdrs t.entries).Nodup) {h : Hdr} (hp : h.1 ≠ b!":path") (hb : t.max < hdrSize h)
    (hout : h ∉ hdrs t.entries) {fuel : Nat} {r : Py (List Nat)} (he : encodeHeaders fuel t [h] = some (t', r)) :
    t' = { t with entries := [], size := 0 } ∧ toSend t [h] = [h] ∧ keptRefs t [h] = [] := by
  obtain ⟨l, w, hl, _, _, _⟩ := encodeHeaders_cases hn he
  obtain ⟨_, hperm, hrefs⟩ := keptRefs_spec hn [h]
  have hk : keptRefs t [h] = [] := by
    cases hk : keptRefs t [h] with
    | nil => rfl
    | cons x xs =>
      have hx : x ∈ keptRefs t [h] := by rw [hk]; simp
      obtain ⟨e, hee, hxe, _⟩ := hrefs x hx
      have : x ∈ [h] := hperm.subset (List.mem_append_left _ hx)
      rw [List.mem_singleton] at this
      subst this
      exact absurd (mem_hdrs.2 ⟨e, hee, hxe⟩) hout
  rw [hk, List.nil_append] at hperm
  have hts : toSend t [h] = [h] := List.perm_singleton.1 hperm
  rw [hk] at hl
  have ht' : t' = sentTab t [h] := by
    cases fuel with
    | zero => simp [loopTab] at hl
    | succ n => simp [loopTab] at hl; exact hl.1.symm
  refine ⟨?_, hts, hk⟩
  rw [ht']
  unfold sentTab
  rw [hts, List.foldl_cons, List.foldl_nil]
  obtain ⟨s1, _⟩ := removedTab_inv hs hn [h]
  have hh : hdrs (removedTab t [h]).entries = hdrs t.entries := removedTab_hdrs hn [h]
  have hf : findHeader (removedTab t [h]).entries h = none := by rw [findHeader_none', hh]; exact hout
  unfold encTab
  rw [hf]
  simp only [if_neg hp]
  have hsz : SizeOK (removedTab t [h]) := by unfold SizeOK; rw [removedTab_size, hh]; exact hs
  rw [append_big hsz (by rw [removedTab_max]; exact hb)]
  have := removedTab_max t [h]
  cases hr : removedTab t [h]
  rw [hr] at this
  simp only at this ⊢
  rw [this]

/-- The bytes of a literal with its name spelt out do not depend on the table of the decoder. -/
theorem steps_any {t td : Tab} {h : Hdr} (hn : findHeaderName t.entries h = none) :
    Steps td (literalBytes 0x40 t h) (appendHeader td { header := h, referenced := true, emitted := true }) [h] := by
  obtain ⟨b, w, hw, h1, h2, hr⟩ := literal_split 0x40 (by decide) t h
  rw [hw]
  refine Steps.one fun rest => ?_
  obtain ⟨r1, e1, r2, e2, e3⟩ := hr rest
  obtain ⟨a1, a2, a3⟩ := dec_40 b (by omega) (by omega)
  rw [hn] at e1 e2
  have e2' : decodeName td 0 r1 = .ok (h.1, r2) := e2
  unfold decodeStep decodeLiteral
  simp [a1, a2, a3, e1, e2', e3, bind, Except.bind, pure, Except.pure, idxPlusOne]

/-- The whole message when there is nothing to remove and no entry has the name. -/
theorem encode_plain {t t' : Tab} (hs : SizeOK t) (hn : (hdrs t.entries).Nodup) {h : Hdr} (hp : h.1 ≠ b!":path") (hb : t.max < hdrSize h)
    (hno : ∀ e ∈ t.entries, e.referenced = false) (hname : ∀ e ∈ t.entries, e.header.1 ≠ h.1) {fuel : Nat} {r : Py (List Nat)}
    (he : encodeHeaders fuel t [h] = some (t', r)) : r = frame (literalBytes 0x40 t h) ∧ findHeaderName t.entries h = none := by
  have hout : h ∉ hdrs t.entries := fun hm => by
    obtain ⟨e, he, hxe⟩ := mem_hdrs.1 hm
    exact hname e he (by rw [hxe])
  obtain ⟨_, hts, hk⟩ := encode_big hs hn hp hb hout he
  have hfn : findHeaderName t.entries h = none := by
    unfold findHeaderName
    rw [List.findIdx?_eq_none_iff]
    intro e he
    simpa using fun hc => hname e he hc.symm
  refine ⟨?_, hfn⟩
  have hfh : findHeader (resetEmitted t.entries) h = none := by
    rw [findHeader_none']
    simpa [resetEmitted, hdrs, Function.comp_def] using hout
  have hdiff : computeDiff t.entries [h] = ⟨clearMarks (resetEmitted t.entries), [], [], [h]⟩ := by
    simp only [computeDiff, List.foldl_cons, List.foldl_nil, diffMark, hfh, List.nil_append, Diff.mk.injEq, true_and, and_true]
    rw [List.eq_nil_iff_forall_not_mem]
    intro i hi
    obtain ⟨j, e, _, hj, hje, _⟩ := (mem_removedFrom _ 0 i).1 hi
    obtain ⟨e', he', rfl⟩ := List.mem_map.1 (List.mem_of_getElem? hj)
    have := hno e' he'
    simp [this] at hje
  have hn2 : ∀ e ∈ updateTable (clearMarks (resetEmitted t.entries)), e.header.1 ≠ h.1 := by
    intro e he
    obtain ⟨e1, h1, rfl⟩ := List.mem_map.1 he
    obtain ⟨e2, h2, rfl⟩ := List.mem_map.1 h1
    obtain ⟨e3, h3, rfl⟩ := List.mem_map.1 h2
    have := hname e3 h3
    simp only
    split <;> exact this
  have hf2 : findHeader (updateTable (clearMarks (resetEmitted t.entries))) h = none := by
    rw [findHeader_none]
    exact fun e he hc => hn2 e he (by rw [hc])
  have hfn2 : findHeaderName (updateTable (clearMarks (resetEmitted t.entries))) h = none := by
    unfold findHeaderName
    rw [List.findIdx?_eq_none_iff]
    intro e he
    simpa using fun hc => hn2 e he hc.symm
  have hb2 : literalBytes 0x40 { t with entries := updateTable (clearMarks (resetEmitted t.entries)) } h = literalBytes 0x40 t h := by
    unfold literalBytes nameBytes
    simp only [hfn, hfn2]
  obtain ⟨l, w, _, hbody, hr, _⟩ := encodeHeaders_cases hn he
  rw [hr]
  congr 1
  simp only [encodeBody, hdiff, encodeRemoved, encodeList, encodeHeader, determineRepresentation, hf2, if_neg hp,
    writeLiteral_eq (show 0x40 + 31 < 256 by decide), hb2, bind, Except.bind, pure, Except.pure] at hbody
  cases fuel with
  | zero => simp [resendLoop] at hbody
  | succ n =>
    simp [resendLoop] at hbody
    exact hbody.2.symm

end Verif.Http2
