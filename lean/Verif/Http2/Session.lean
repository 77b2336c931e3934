import Verif.Http2.Inv
/- One message, and whole sessions. -/
namespace Verif.Http2
open Verif Spec

/-! ### compute_diff -/

/-- Table with the entries of `refs` marked. -/
def mark (refs : List Hdr) (es : List HeaderEntry) : List HeaderEntry :=
  es.map fun e => { e with emitted := decide (e.header ∈ refs) }

theorem mark_nil (es : List HeaderEntry) : mark [] es = resetEmitted es := by
  simp [mark, resetEmitted]

theorem mark_getElem? (refs es) (i : Nat) :
    (mark refs es)[i]? = es[i]?.map fun e => { e with emitted := decide (e.header ∈ refs) } := by
  simp [mark]

theorem hdrs_mark (refs es) : hdrs (mark refs es) = hdrs es := by
  simp [hdrs, mark, Function.comp_def]

theorem nodup_getElem?_inj {es : List HeaderEntry} (hn : (hdrs es).Nodup) {i j : Nat}
    {a b : HeaderEntry} (hi : es[i]? = some a) (hj : es[j]? = some b) (h : a.header = b.header) :
    i = j := by
  obtain ⟨hi1, rfl⟩ := List.getElem?_eq_some_iff.1 hi
  obtain ⟨hj1, rfl⟩ := List.getElem?_eq_some_iff.1 hj
  have h1 : i < (hdrs es).length := by simpa using hi1
  have h2 : j < (hdrs es).length := by simpa using hj1
  refine (hn.getElem_inj_iff (hi := h1) (hj := h2)).1 ?_
  simpa [hdrs] using h

theorem mark_set {es : List HeaderEntry} (hn : (hdrs es).Nodup) (refs : List Hdr) {i : Nat}
    {e : HeaderEntry} (he : (mark refs es)[i]? = some e) :
    (mark refs es).set i { e with emitted := true } = mark (refs ++ [e.header]) es := by
  apply List.ext_getElem?
  intro j
  rw [List.getElem?_set]
  by_cases hij : i = j
  · subst hij
    have hlt : i < (mark refs es).length := (List.getElem?_eq_some_iff.1 he).1
    simp only [if_true, hlt]
    rw [mark_getElem?] at he ⊢
    cases h0 : es[i]? with
    | none => rw [h0] at he; simp at he
    | some e0 =>
      rw [h0] at he
      simp only [Option.map_some, Option.some.injEq] at he ⊢
      subst he
      simp
  · simp only [hij, if_false]
    rw [mark_getElem?, mark_getElem?]
    cases hj : es[j]? with
    | none => rfl
    | some ej =>
      simp only [Option.map_some, Option.some.injEq]
      have : ej.header ≠ e.header := by
        intro hc
        rw [mark_getElem?] at he
        cases h0 : es[i]? with
        | none => rw [h0] at he; simp at he
        | some e0 =>
          rw [h0] at he
          simp only [Option.map_some, Option.some.injEq] at he
          subst he
          exact hij (nodup_getElem?_inj hn h0 hj hc.symm)
      simp [this]

/-- What the marking loop computes. -/
structure DiffInv (es : List HeaderEntry) (done : List Hdr)
    (st : List HeaderEntry × List Hdr × List Hdr) : Prop where
  table : st.1 = mark st.2.1 es
  refs : ∀ r ∈ st.2.1, ∃ e ∈ es, e.header = r ∧ e.referenced = true
  nodup : st.2.1.Nodup
  perm : (st.2.1 ++ st.2.2).Perm done
  rems : ∀ h ∈ st.2.2, (∃ e ∈ es, e.header = h ∧ e.referenced = true) → h ∈ st.2.1

theorem diffMark_inv {es : List HeaderEntry} (hn : (hdrs es).Nodup) {done : List Hdr} {st}
    (hd : DiffInv es done st) (h : Hdr) : DiffInv es (done ++ [h]) (diffMark st h) := by
  obtain ⟨es1, refs, rems⟩ := st
  obtain ⟨htab, hrefs, hnd, hperm, hrems⟩ := hd
  simp only at htab hrefs hnd hperm hrems
  have hrem : (refs ++ (rems ++ [h])).Perm (done ++ [h]) := by
    rw [← List.append_assoc]; exact hperm.append_right _
  unfold diffMark
  dsimp only
  cases hf : findHeader es1 h with
  | none =>
    refine ⟨htab, hrefs, hnd, hrem, ?_⟩
    intro x hx hex
    rcases List.mem_append.1 hx with h1 | h1
    · exact hrems x h1 hex
    · simp at h1; subst h1
      exfalso
      rw [findHeader_none', htab, hdrs_mark] at hf
      obtain ⟨e, h1, h2, _⟩ := hex
      exact hf (mem_hdrs.2 ⟨e, h1, h2⟩)
  | some i =>
    obtain ⟨e, he, hh⟩ := findHeader_some hf
    simp only [he]
    have he' := he
    rw [htab, mark_getElem?] at he'
    cases h0 : es[i]? with
    | none => rw [h0] at he'; simp at he'
    | some e0 =>
      rw [h0] at he'
      simp only [Option.map_some, Option.some.injEq] at he'
      have hmem := List.mem_of_getElem? h0
      by_cases hr : e.referenced = true
      · by_cases hm : e.emitted = true
        · simp only [hr, hm, if_true]
          refine ⟨htab, hrefs, hnd, hrem, ?_⟩
          intro x hx hex
          rcases List.mem_append.1 hx with h1 | h1
          · exact hrems x h1 hex
          · simp at h1; subst h1
            subst he'
            simp only [decide_eq_true_eq] at hm hh
            rw [← hh]; exact hm
        · simp only [hr, hm, if_true]
          have hnot : h ∉ refs := by
            intro hc; apply hm; subst he'; simp only at hh; simp [hh, hc]
          refine ⟨?_, ?_, ?_, ?_, ?_⟩
          · subst htab
            have := mark_set hn refs he
            simpa [hh, hr] using this
          · intro r hr'
            rcases List.mem_append.1 hr' with h1 | h1
            · exact hrefs r h1
            · simp at h1; subst h1
              subst he'
              exact ⟨e0, hmem, hh, hr⟩
          · simp only [Bool.false_eq_true, if_false]
            rw [List.nodup_append]
            refine ⟨hnd, by simp, ?_⟩
            intro a ha b hb; simp at hb; subst hb
            rintro rfl; exact hnot ha
          · simp only [Bool.false_eq_true, if_false]
            refine List.Perm.trans ?_ (hperm.append_right [h])
            rw [List.append_assoc, List.append_assoc]
            exact List.Perm.append_left _ List.perm_append_comm
          · intro x hx hex
            simp only [Bool.false_eq_true, if_false] at hx ⊢
            exact List.mem_append_left _ (hrems x hx hex)
      · simp only [hr]
        refine ⟨htab, hrefs, hnd, hrem, ?_⟩
        intro x hx hex
        simp only [Bool.false_eq_true, if_false] at hx
        rcases List.mem_append.1 hx with h1 | h1
        · exact hrems x h1 hex
        · simp at h1; subst h1
          exfalso
          obtain ⟨e1, h1, h2, h3⟩ := hex
          obtain ⟨j, hj⟩ := List.mem_iff_getElem?.1 h1
          subst he'
          have := nodup_getElem?_inj hn h0 hj (by simp only at hh; rw [hh, h2])
          subst this
          rw [h0] at hj; cases hj
          exact hr h3

theorem diff_inv {es : List HeaderEntry} (hn : (hdrs es).Nodup) (hs : List Hdr) :
    DiffInv es hs (hs.foldl diffMark (resetEmitted es, [], [])) := by
  have gen : ∀ (hs done : List Hdr) st, DiffInv es done st →
      DiffInv es (done ++ hs) (hs.foldl diffMark st) := by
    intro hs
    induction hs with
    | nil => intro done st h; simpa using h
    | cons h hs ih =>
      intro done st hd
      have := ih (done ++ [h]) _ (diffMark_inv hn hd h)
      simpa using this
  have h0 : DiffInv es [] (resetEmitted es, [], []) :=
    ⟨(mark_nil es).symm, by simp, by simp, by simp, by simp⟩
  simpa using gen hs [] _ h0

/-! ### Removed entries -/

theorem mem_removedFrom (es : List HeaderEntry) : ∀ k i, i ∈ removedFrom k es ↔
    ∃ j e, i = k + j ∧ es[j]? = some e ∧ e.referenced = true ∧ e.emitted = false := by
  induction es with
  | nil => intro k i; simp [removedFrom]
  | cons e es ih =>
    intro k i
    have hrest : i ∈ removedFrom (k + 1) es ↔
        ∃ j e', i = k + (j + 1) ∧ (e :: es)[j + 1]? = some e' ∧ e'.referenced = true ∧ e'.emitted = false := by
      rw [ih]
      constructor
      · rintro ⟨j, e', h1, h2⟩; exact ⟨j, e', by omega, by simpa using h2⟩
      · rintro ⟨j, e', h1, h2⟩; exact ⟨j, e', by omega, by simpa using h2⟩
    have hsplit : (∃ j e', i = k + j ∧ (e :: es)[j]? = some e' ∧ e'.referenced = true ∧ e'.emitted = false) ↔
        (i = k ∧ e.referenced = true ∧ e.emitted = false) ∨ i ∈ removedFrom (k + 1) es := by
      rw [hrest]
      constructor
      · rintro ⟨j, e', h1, h2, h3⟩
        cases j with
        | zero => simp at h2; subst h2; exact Or.inl ⟨by omega, h3⟩
        | succ j => exact Or.inr ⟨j, e', h1, h2, h3⟩
      · rintro (⟨h1, h2⟩ | ⟨j, e', h1, h2⟩)
        · exact ⟨0, e, by omega, by simp, h2⟩
        · exact ⟨j + 1, e', h1, h2⟩
    rw [hsplit]
    rw [removedFrom]
    by_cases hc : (e.referenced && !e.emitted) = true
    · rw [if_pos hc]
      simp only [Bool.and_eq_true, Bool.not_eq_true'] at hc
      simp [hc]
    · rw [if_neg hc]
      simp only [Bool.and_eq_true, Bool.not_eq_true'] at hc
      simp [hc]

theorem removedFrom_nodup (es : List HeaderEntry) : ∀ k, (removedFrom k es).Nodup := by
  induction es with
  | nil => intro k; simp [removedFrom]
  | cons e es ih =>
    intro k
    unfold removedFrom
    split
    · rw [List.nodup_cons]
      refine ⟨?_, ih _⟩
      rw [mem_removedFrom]
      rintro ⟨j, _, h, _⟩; omega
    · exact ih _

theorem unref_foldl_getElem? (is : List Nat) : ∀ (t : Tab) (j : Nat),
    (is.foldl unref t).entries[j]? =
      if j ∈ is then t.entries[j]?.map (fun e => { e with referenced := false, emitted := false })
      else t.entries[j]? := by
  induction is with
  | nil => intro t j; simp
  | cons i is ih =>
    intro t j
    rw [List.foldl_cons, ih]
    by_cases hij : i = j
    · subst hij
      have : (unref t i).entries[i]? =
          t.entries[i]?.map (fun e => { e with referenced := false, emitted := false }) := by
        unfold unref
        cases h : t.entries[i]? with
        | none => simp [h]
        | some e =>
          have hlt : i < t.entries.length := (List.getElem?_eq_some_iff.1 h).1
          simp [hlt]
      rw [this]
      simp only [List.mem_cons, true_or, if_true]
      split
      · cases t.entries[i]? <;> simp
      · rfl
    · rw [unref_getElem? hij]
      have : (j ∈ i :: is) ↔ j ∈ is := by
        simp only [List.mem_cons]; constructor
        · rintro (h | h)
          · exact absurd h.symm hij
          · exact h
        · exact Or.inr
      simp only [this]

theorem unref_foldl_size (is : List Nat) : ∀ (t : Tab),
    (is.foldl unref t).size = t.size ∧ (is.foldl unref t).max = t.max := by
  induction is with
  | nil => intro t; simp
  | cons i is ih =>
    intro t
    rw [List.foldl_cons]
    obtain ⟨h1, h2⟩ := ih (unref t i)
    have : (unref t i).size = t.size ∧ (unref t i).max = t.max := by
      unfold unref; split <;> simp
    rw [h1, h2]; exact this

theorem unref_foldl_hdrs (is : List Nat) (t : Tab) :
    hdrs (is.foldl unref t).entries = hdrs t.entries := by
  apply List.ext_getElem?
  intro j
  simp only [hdrs, List.getElem?_map, unref_foldl_getElem?]
  split
  · cases t.entries[j]? <;> simp
  · rfl

/-! ### One message -/

/-- The table right before anything is written. -/
def startTab (t : Tab) (hs : List Hdr) : Tab :=
  { t with entries := updateTable (computeDiff t.entries hs).entries }

/-- Kept references and headers to send. -/
def keptRefs (t : Tab) (hs : List Hdr) : List Hdr := (computeDiff t.entries hs).referenced
def toSend (t : Tab) (hs : List Hdr) : List Hdr := (computeDiff t.entries hs).remaining

/-- The table after the removals. -/
def removedTab (t : Tab) (hs : List Hdr) : Tab :=
  (computeDiff t.entries hs).removed.foldl unref (startTab t hs)

/-- The table after encoding the headers that are not kept. -/
def sentTab (t : Tab) (hs : List Hdr) : Tab := (toSend t hs).foldl encTab (removedTab t hs)

theorem diff_getElem? {t : Tab} (hn : (hdrs t.entries).Nodup) (hs : List Hdr) (i : Nat) :
    (startTab t hs).entries[i]? = t.entries[i]?.map fun e =>
      { e with age := if e.referenced then 0 else e.age + 1, emitted := false } := by
  have hd := diff_inv hn hs
  unfold startTab computeDiff
  dsimp only
  rw [hd.table]
  simp only [updateTable, clearMarks, mark, List.getElem?_map, Option.map_map]
  cases t.entries[i]? with
  | none => rfl
  | some e =>
    simp only [Option.map_some, Function.comp_apply, Option.some.injEq]
    split <;> simp

theorem startTab_erase {t : Tab} (hn : (hdrs t.entries).Nodup) (hs : List Hdr) :
    erase (startTab t hs) = { erase t with entries := resetEmitted (erase t).entries } := by
  unfold erase
  simp only [startTab, Tab.mk.injEq, and_true]
  apply List.ext_getElem?
  intro i
  have := diff_getElem? hn hs i
  simp only [startTab] at this
  simp only [resetEmitted, List.getElem?_map, this]
  cases t.entries[i]? <;> simp [erase1]

theorem hdrs_startTab {t : Tab} (hn : (hdrs t.entries).Nodup) (hs : List Hdr) :
    hdrs (startTab t hs).entries = hdrs t.entries := by
  apply List.ext_getElem?
  intro j
  simp only [hdrs, List.getElem?_map, diff_getElem? hn]
  cases t.entries[j]? <;> simp

theorem removed_valid {t : Tab} (hn : (hdrs t.entries).Nodup) (hs : List Hdr) :
    ∀ i ∈ (computeDiff t.entries hs).removed,
      ∃ e, (startTab t hs).entries[i]? = some e ∧ e.referenced = true := by
  intro i hi
  have hd := diff_inv hn hs
  unfold computeDiff at hi
  dsimp only at hi
  rw [hd.table, mem_removedFrom] at hi
  obtain ⟨j, e, h1, h2, h3, h4⟩ := hi
  have : i = j := by omega
  subst this
  rw [mark_getElem?] at h2
  rw [diff_getElem? hn]
  cases h0 : t.entries[i]? with
  | none => rw [h0] at h2; simp at h2
  | some e0 =>
    rw [h0] at h2
    simp only [Option.map_some, Option.some.injEq] at h2
    subst h2
    exact ⟨_, rfl, h3⟩

theorem keptRefs_spec {t : Tab} (hn : (hdrs t.entries).Nodup) (hs : List Hdr) :
    (keptRefs t hs).Nodup ∧ (keptRefs t hs ++ toSend t hs).Perm hs ∧
    (∀ r ∈ keptRefs t hs, ∃ e ∈ t.entries, e.header = r ∧ e.referenced = true) := by
  have hd := diff_inv hn hs
  exact ⟨hd.nodup, hd.perm, hd.refs⟩

theorem removedTab_getElem? {t : Tab} (hn : (hdrs t.entries).Nodup) (hs : List Hdr) (i : Nat) :
    (removedTab t hs).entries[i]? = t.entries[i]?.map fun e =>
      { e with age := if e.referenced then 0 else e.age + 1, emitted := false,
               referenced := e.referenced && decide (e.header ∈ keptRefs t hs) } := by
  have hd := diff_inv hn hs
  unfold removedTab
  rw [unref_foldl_getElem?, diff_getElem? hn]
  have hmem : i ∈ (computeDiff t.entries hs).removed ↔
      ∃ e, t.entries[i]? = some e ∧ e.referenced = true ∧ e.header ∉ keptRefs t hs := by
    unfold computeDiff keptRefs computeDiff
    dsimp only
    rw [hd.table, mem_removedFrom]
    constructor
    · rintro ⟨j, e, h1, h2, h3, h4⟩
      have : i = j := by omega
      subst this
      rw [mark_getElem?] at h2
      cases h0 : t.entries[i]? with
      | none => rw [h0] at h2; simp at h2
      | some e0 =>
        rw [h0] at h2
        simp only [Option.map_some, Option.some.injEq] at h2
        subst h2
        simp only [decide_eq_false_iff_not] at h4
        exact ⟨e0, rfl, h3, h4⟩
    · rintro ⟨e, h1, h2, h3⟩
      refine ⟨i, { e with emitted := false }, by omega, ?_, h2, rfl⟩
      rw [mark_getElem?, h1]
      simp [h3]
  cases h0 : t.entries[i]? with
  | none => simp
  | some e =>
    simp only [h0, Option.some.injEq, exists_eq_left'] at hmem
    simp only [Option.map_some]
    by_cases hr : e.referenced = true
    · by_cases hk : e.header ∈ keptRefs t hs
      · have : ¬ i ∈ (computeDiff t.entries hs).removed := by rw [hmem]; simp [hk]
        simp [this, hr, hk]
      · have : i ∈ (computeDiff t.entries hs).removed := by rw [hmem]; exact ⟨hr, hk⟩
        simp [this, hr, hk]
    · have : ¬ i ∈ (computeDiff t.entries hs).removed := by rw [hmem]; simp [hr]
      simp [this, hr]

theorem removedTab_inv {t : Tab} (hsz : SizeOK t) (hn : (hdrs t.entries).Nodup) (hs : List Hdr) :
    Inv (keptRefs t hs) [] (removedTab t hs) := by
  have hh : hdrs (removedTab t hs).entries = hdrs t.entries := by
    unfold removedTab; rw [unref_foldl_hdrs, hdrs_startTab hn]
  have hall : ∀ e ∈ (removedTab t hs).entries, ∃ e0 ∈ t.entries, e.header = e0.header ∧
      e.referenced = (e0.referenced && decide (e0.header ∈ keptRefs t hs)) ∧ e.emitted = false := by
    intro e he
    obtain ⟨i, hi⟩ := List.mem_iff_getElem?.1 he
    rw [removedTab_getElem? hn] at hi
    cases h0 : t.entries[i]? with
    | none => rw [h0] at hi; simp at hi
    | some e0 =>
      rw [h0] at hi
      simp only [Option.map_some, Option.some.injEq] at hi
      subst hi
      exact ⟨e0, List.mem_of_getElem? h0, rfl, rfl, rfl⟩
  refine ⟨?_, by rw [hh]; exact hn, ?_, ?_, ?_⟩
  · unfold SizeOK; rw [hh]
    unfold removedTab
    rw [(unref_foldl_size _ _).1]; exact hsz
  · intro e he hR
    obtain ⟨e0, h1, h2, h3, _⟩ := hall e he
    rw [h2] at hR
    obtain ⟨e1, h4, h5, h6⟩ := (keptRefs_spec hn hs).2.2 _ hR
    have : e1 = e0 := by
      obtain ⟨i, hi⟩ := List.mem_iff_getElem?.1 h1
      obtain ⟨j, hj⟩ := List.mem_iff_getElem?.1 h4
      have := nodup_getElem?_inj hn hj hi h5
      subst this; rw [hi] at hj; exact (Option.some.inj hj).symm
    subst this
    rw [h3, h6]; simpa using hR
  · intro e he hr _
    obtain ⟨e0, h1, h2, h3, _⟩ := hall e he
    rw [h3] at hr
    simp only [Bool.and_eq_true, decide_eq_true_eq] at hr
    rw [h2]; exact hr.2
  · intro e he hm
    obtain ⟨e0, _, _, _, h4⟩ := hall e he
    rw [h4] at hm; cases hm

/-- The encoder never raises before the framing, and stops exactly when the re-send loop does. -/
theorem encodeBody_none {t : Tab} (hn : (hdrs t.entries).Nodup) (fuel : Nat) (hs : List Hdr) :
    encodeBody fuel t hs = none ↔ loopTab fuel (sentTab t hs) (keptRefs t hs) = none := by
  obtain ⟨w1, e1, _⟩ := encodeRemoved_steps (computeDiff t.entries hs).removed (startTab t hs)
    (by unfold computeDiff; exact removedFrom_nodup _ _) (removed_valid hn hs)
  obtain ⟨w2, e2, _⟩ := encodeList_steps (toSend t hs) (removedTab t hs)
  rw [← resendLoop_none]
  unfold encodeBody
  dsimp only
  change encodeRemoved { t with entries := updateTable (computeDiff t.entries hs).entries } _ = _ at e1
  rw [e1]; dsimp only
  change encodeList ((computeDiff t.entries hs).removed.foldl unref (startTab t hs)) (computeDiff t.entries hs).remaining = _ at e2
  rw [e2]; dsimp only
  unfold sentTab toSend keptRefs removedTab
  cases resendLoop fuel
    ((computeDiff t.entries hs).remaining.foldl encTab ((computeDiff t.entries hs).removed.foldl unref (startTab t hs)))
    (computeDiff t.entries hs).referenced with
  | none => simp
  | some r => cases r <;> simp

theorem encodeBody_steps {t : Tab} (hn : (hdrs t.entries).Nodup) {fuel : Nat} {hs : List Hdr}
    {t' : Tab} {l : List Hdr} (hl : loopTab fuel (sentTab t hs) (keptRefs t hs) = some (t', l)) :
    ∃ w, encodeBody fuel t hs = some (.ok (t', w)) ∧
      Steps { erase t with entries := resetEmitted (erase t).entries } w (erase t') (toSend t hs ++ l) := by
  obtain ⟨w1, e1, s1⟩ := encodeRemoved_steps (computeDiff t.entries hs).removed (startTab t hs)
    (by unfold computeDiff; exact removedFrom_nodup _ _) (removed_valid hn hs)
  obtain ⟨w2, e2, s2⟩ := encodeList_steps (toSend t hs) (removedTab t hs)
  obtain ⟨w3, e3, s3⟩ := resendLoop_steps _ _ _ _ _ hl
  refine ⟨w1 ++ w2 ++ w3, ?_, ?_⟩
  · unfold encodeBody
    dsimp only
    change encodeRemoved { t with entries := updateTable (computeDiff t.entries hs).entries } _ = _ at e1
    rw [e1]; dsimp only
    change encodeList ((computeDiff t.entries hs).removed.foldl unref (startTab t hs)) (computeDiff t.entries hs).remaining = _ at e2
    rw [e2]; dsimp only
    change resendLoop fuel ((toSend t hs).foldl encTab (removedTab t hs)) (computeDiff t.entries hs).referenced = _ at e3
    rw [e3]
  · rw [← startTab_erase hn hs]
    have := (s1.append s2).append s3
    simpa using this

/-! ### Output of one message -/

theorem message_output {t : Tab} (hsz : SizeOK t) (hn : (hdrs t.entries).Nodup) {fuel : Nat}
    {hs : List Hdr} {t' : Tab} {l : List Hdr}
    (hl : loopTab fuel (sentTab t hs) (keptRefs t hs) = some (t', l)) :
    SizeOK t' ∧ (hdrs t'.entries).Nodup ∧
    SameSet (toSend t hs ++ l ++ remainingHeaders t'.entries) hs ∧
    (hs.Nodup → (toSend t hs ++ l ++ remainingHeaders t'.entries).Perm hs) := by
  obtain ⟨hRn, hperm, _⟩ := keptRefs_spec hn hs
  have hinv0 := removedTab_inv hsz hn hs
  have hinv1 : Inv (keptRefs t hs) (toSend t hs) (sentTab t hs) := hinv0.foldl (toSend t hs)
  have hinv2 := hinv1.loop fuel hl
  obtain ⟨hsub, hall⟩ := loopTab_sub _ _ _ _ _ hl
  have hF : ∀ h, h ∈ remainingHeaders t'.entries ↔
      ∃ e ∈ t'.entries, e.header = h ∧ e.referenced = true ∧ e.emitted = false := by
    intro h
    simp only [remainingHeaders, List.mem_map, List.mem_filter, Bool.and_eq_true, Bool.not_eq_true']
    constructor
    · rintro ⟨e, ⟨h1, h2, h3⟩, h4⟩; exact ⟨e, h1, h4, h2, h3⟩
    · rintro ⟨e, h1, h4, h2, h3⟩; exact ⟨e, ⟨h1, h2, h3⟩, h4⟩
  have hcov : ∀ r ∈ keptRefs t hs, r ∈ toSend t hs ++ l ∨ r ∈ remainingHeaders t'.entries := by
    intro r hr
    obtain ⟨e, he, hh⟩ := mem_hdrs.1 (hall r hr)
    by_cases hm : e.emitted = true
    · left; rw [← hh]; exact hinv2.sent e he hm
    · right; rw [hF]
      exact ⟨e, he, hh, hinv2.kept e he (by rw [hh]; exact hr), by simpa using hm⟩
  have hFsub : ∀ h ∈ remainingHeaders t'.entries, h ∈ keptRefs t hs := by
    intro h hh
    obtain ⟨e, h1, h2, h3, h4⟩ := (hF h).1 hh
    rw [← h2]; exact hinv2.silent e h1 h3 h4
  have hmem : ∀ h, h ∈ hs ↔ h ∈ keptRefs t hs ∨ h ∈ toSend t hs := by
    intro h; rw [← hperm.mem_iff, List.mem_append]
  refine ⟨hinv2.size, hinv2.nodup, ?_, ?_⟩
  · intro h
    rw [hmem]
    simp only [List.mem_append]
    constructor
    · rintro ((h1 | h1) | h1)
      · exact Or.inr h1
      · exact Or.inl (hsub h1)
      · exact Or.inl (hFsub h h1)
    · rintro (h1 | h1)
      · rcases hcov h h1 with h2 | h2
        · exact Or.inl (List.mem_append.1 h2)
        · exact Or.inr h2
      · exact Or.inl (Or.inl h1)
  · intro hsn
    have hnd := hperm.nodup_iff.2 hsn
    rw [List.nodup_append] at hnd
    obtain ⟨_, hSn, hdisj⟩ := hnd
    have hln := loopTab_nodup hRn hinv1.size hinv1.nodup hl
    -- an entry of a re-sent header is emitted
    have hemit : ∀ e ∈ t'.entries, e.header ∈ l → e.emitted = true := by
      have genEnc : ∀ (t : Tab) (L : List Hdr) (h : Hdr), SizeOK t → (hdrs t.entries).Nodup →
          (∀ e ∈ t.entries, e.header ∈ L → e.emitted = true) →
          (∀ e ∈ (encTab t h).entries, e.header ∈ L ++ [h] → h ∉ hdrs t.entries → e.emitted = true) := by
        intro t L h hs _ hL e he hmem hout
        rcases mem_encTab hs he with h1 | ⟨_, _, h3⟩
        · rcases List.mem_append.1 hmem with h2 | h2
          · exact hL e h1 h2
          · simp at h2; exact absurd (mem_hdrs.2 ⟨e, h1, h2⟩) hout
        · exact h3
      have genPass : ∀ (hs : List Hdr) (t : Tab) (L : List Hdr), SizeOK t → (hdrs t.entries).Nodup →
          (∀ e ∈ t.entries, e.header ∈ L → e.emitted = true) →
          (∀ e ∈ (passTab t hs).1.entries, e.header ∈ L ++ (passTab t hs).2 → e.emitted = true) := by
        intro hs
        induction hs with
        | nil => intro t L _ _ hL; simpa [passTab] using hL
        | cons h hs ih =>
          intro t L hs' hn' hL
          unfold passTab
          cases hf : findHeader t.entries h with
          | none =>
            dsimp only
            have hout := findHeader_none'.1 hf
            have := ih (encTab t h) (L ++ [h]) (encTab_sizeOK hs' h) (encTab_nodup hs' hn' h)
              (fun e he hmem => genEnc t L h hs' hn' hL e he hmem hout)
            simpa using this
          | some i => exact ih t L hs' hn' hL
      have genLoop : ∀ (n : Nat) (R : List Hdr) (t : Tab) (L : List Hdr) (t' : Tab) (l : List Hdr),
          SizeOK t → (hdrs t.entries).Nodup →
          (∀ e ∈ t.entries, e.header ∈ L → e.emitted = true) → loopTab n t R = some (t', l) →
          (∀ e ∈ t'.entries, e.header ∈ L ++ l → e.emitted = true) := by
        intro n
        induction n with
        | zero => intro R t L t' l _ _ _ h; simp [loopTab] at h
        | succ n ih =>
          intro R t L t' l hs' hn' hL h
          unfold loopTab at h
          by_cases hr : R = []
          · simp only [hr, if_true, Option.some.injEq, Prod.mk.injEq] at h
            obtain ⟨rfl, rfl⟩ := h; simpa using hL
          · simp only [hr, if_false] at h
            have hp := genPass R t L hs' hn' hL
            by_cases hl : (passTab t R).2 = []
            · simp only [hl, if_true, Option.some.injEq] at h
              rw [h] at hp; exact hp
            · simp only [hl, if_false] at h
              cases h2 : loopTab n (passTab t R).1 R with
              | none => simp [h2] at h
              | some q =>
                rw [h2] at h
                simp only [Option.some.injEq, Prod.mk.injEq] at h
                obtain ⟨rfl, rfl⟩ := h
                have hpn := passTab_nodup R hs' hn'
                have := ih R _ _ _ _ (passTab_sizeOK R hs') hpn hp h2
                simpa [List.append_assoc] using this
      have := genLoop fuel _ _ [] _ _ hinv1.size hinv1.nodup (by simp) hl
      simpa using this
    -- `l ++ F` is a permutation of the kept references
    have hFn : (remainingHeaders t'.entries).Nodup := by
      have : (remainingHeaders t'.entries).Sublist (hdrs t'.entries) := List.filter_sublist.map _
      exact hinv2.nodup.sublist this
    have hlF : (l ++ remainingHeaders t'.entries).Perm (keptRefs t hs) := by
      rw [List.perm_ext_iff_of_nodup _ hRn]
      · intro h
        rw [List.mem_append]
        constructor
        · rintro (h1 | h1)
          · exact hsub h1
          · exact hFsub h h1
        · intro h1
          rcases hcov h h1 with h2 | h2
          · rcases List.mem_append.1 h2 with h3 | h3
            · exact absurd rfl (hdisj h h1 h h3)
            · exact Or.inl h3
          · exact Or.inr h2
      · rw [List.nodup_append]
        refine ⟨hln, hFn, ?_⟩
        rintro a ha b hb rfl
        obtain ⟨e, h1, h2, h3, h4⟩ := (hF a).1 hb
        have := hemit e h1 (by rw [h2]; exact ha)
        rw [h4] at this; cases this
    rw [List.append_assoc]
    exact (hlF.append_left _).trans (List.perm_append_comm.trans hperm)

end Verif.Http2
