import Verif.Http2.Sim
import Mathlib.Data.List.Nodup
import Mathlib.Data.List.Perm.Basic
import Mathlib.Data.List.Perm.Subperm
/- Invariants of the header tables and of one encoded message. -/
namespace Verif.Http2
open Verif Spec

/-- Headers of the table. -/
def hdrs (es : List HeaderEntry) : List Hdr := es.map (·.header)

@[simp] theorem hdrs_nil : hdrs [] = [] := rfl
@[simp] theorem hdrs_cons (e es) : hdrs (e :: es) = e.header :: hdrs es := rfl
@[simp] theorem hdrs_append (a b) : hdrs (a ++ b) = hdrs a ++ hdrs b := by simp [hdrs]
@[simp] theorem hdrs_length (es) : (hdrs es).length = es.length := by simp [hdrs]

theorem mem_hdrs {h es} : h ∈ hdrs es ↔ ∃ e ∈ es, e.header = h := by simp [hdrs]

theorem findHeader_none' {es : List HeaderEntry} {h : Hdr} :
    findHeader es h = none ↔ h ∉ hdrs es := by
  rw [findHeader_none, mem_hdrs]; simp

theorem entryLen_eq (h : Hdr) : entryLen h = hdrSize h := rfl

@[simp] theorem hdrsSize_nil : hdrsSize [] = 0 := rfl
@[simp] theorem hdrsSize_cons (h l) : hdrsSize (h :: l) = hdrSize h + hdrsSize l := by
  simp [hdrsSize]
@[simp] theorem hdrsSize_append (a b) : hdrsSize (a ++ b) = hdrsSize a + hdrsSize b := by
  simp [hdrsSize]

theorem hdrsSize_perm {a b : List Hdr} (h : a.Perm b) : hdrsSize a = hdrsSize b :=
  (h.map _).sum_nat

theorem hdrsSize_sublist {a b : List Hdr} (h : a.Sublist b) : hdrsSize a ≤ hdrsSize b := by
  induction h with
  | slnil => simp
  | cons _ _ ih => simp; omega
  | cons_cons _ _ ih => simp; omega

theorem hdrsSize_subset {a b : List Hdr} (ha : a.Nodup) (h : a ⊆ b) : hdrsSize a ≤ hdrsSize b := by
  obtain ⟨c, h1, h2⟩ := List.subperm_of_subset ha h
  rw [← hdrsSize_perm h1]; exact hdrsSize_sublist h2

/-- The accounted size is the sum over the entries. -/
def SizeOK (t : Tab) : Prop := t.size = hdrsSize (hdrs t.entries)

/-! ### evict / append -/

theorem evict_spec (max need : Int) (es : List HeaderEntry) : ∀ size : Int,
    size = hdrsSize (hdrs es) →
    ∃ k, evict max need size es = ((hdrsSize (hdrs (es.drop k)) : Int), es.drop k) ∧
      ((hdrsSize (hdrs (es.drop k)) : Int) + need ≤ max ∨ es.drop k = []) := by
  induction es with
  | nil => intro size hs; exact ⟨0, by simp [evict, hs], by simp⟩
  | cons e es ih =>
    intro size hs
    unfold evict
    by_cases h : size + need > max
    · rw [if_pos h]
      obtain ⟨k, h1, h2⟩ := ih (size - entryLen e.header) (by
        rw [hs]; simp [entryLen_eq])
      exact ⟨k + 1, by simpa using h1, by simpa using h2⟩
    · rw [if_neg h]
      exact ⟨0, by simp [hs], by left; simp only [List.drop_zero]; omega⟩

/-- Effect of append on consistent tables. -/
theorem appendHeader_spec {t : Tab} (hs : SizeOK t) (e : HeaderEntry) :
    ∃ k, ((appendHeader t e).entries = t.entries.drop k ++ [e] ∧
          (appendHeader t e).size ≤ t.max ∨
        (appendHeader t e).entries = [] ∧ (t.max : Int) < entryLen e.header) ∧
      SizeOK (appendHeader t e) ∧ (appendHeader t e).max = t.max := by
  obtain ⟨k, h1, h2⟩ := evict_spec t.max (entryLen e.header) t.entries t.size hs
  refine ⟨k, ?_⟩
  unfold appendHeader
  simp only [h1]
  by_cases h : (hdrsSize (hdrs (t.entries.drop k)) : Int) + entryLen e.header ≤ t.max
  · simp only [h, if_true]
    refine ⟨Or.inl ⟨trivial, trivial⟩, ?_, trivial⟩
    simp [SizeOK, entryLen_eq]
  · simp only [h, if_false]
    rcases h2 with h2 | h2
    · exact absurd h2 h
    · simp only [h2] at h ⊢
      refine ⟨Or.inr ⟨trivial, by simpa using h⟩, by simp [SizeOK], trivial⟩

/-- Append does not evict the suffix `B` if `B` and the new entry fit together. -/
theorem evict_keeps (max need : Int) (B : List HeaderEntry) (hB : (hdrsSize (hdrs B) : Int) + need ≤ max)
    (A : List HeaderEntry) : ∀ size : Int, size = hdrsSize (hdrs (A ++ B)) →
    ∃ A', evict max need size (A ++ B) = ((hdrsSize (hdrs (A' ++ B)) : Int), A' ++ B) ∧
      (hdrsSize (hdrs (A' ++ B)) : Int) + need ≤ max := by
  induction A with
  | nil =>
    intro size hs
    refine ⟨[], ?_, by simpa using hB⟩
    cases B with
    | nil => simp [evict, hs]
    | cons b B =>
      have : ¬ size + need > max := by rw [hs]; simp only [List.nil_append]; omega
      simp only [List.nil_append] at hs ⊢
      simp only [evict, if_neg this]; rw [hs]
  | cons a A ih =>
    intro size hs
    by_cases h : size + need > max
    · obtain ⟨A', h1, h2⟩ := ih (size - entryLen a.header) (by rw [hs]; simp [entryLen_eq])
      refine ⟨A', ?_, h2⟩
      simp only [List.cons_append, evict, h, if_true, h1]
    · refine ⟨a :: A, ?_, ?_⟩
      · simp only [List.cons_append] at hs
        simp only [List.cons_append, evict, if_neg h]; rw [hs]
      · rw [← hs]; omega

theorem appendHeader_keeps {t : Tab} (hs : SizeOK t) {A B : List HeaderEntry}
    (hAB : t.entries = A ++ B) (e : HeaderEntry)
    (hB : (hdrsSize (hdrs B) : Int) + entryLen e.header ≤ t.max) :
    ∃ A', (appendHeader t e).entries = A' ++ (B ++ [e]) := by
  obtain ⟨A', h1, h2⟩ := evict_keeps t.max (entryLen e.header) B hB A t.size (by rw [← hAB]; exact hs)
  refine ⟨A', ?_⟩
  unfold appendHeader
  simp only [hAB, h1, h2, if_true, List.append_assoc]

/-! ### set -/

theorem hdrs_set {es : List HeaderEntry} {i : Nat} {e e' : HeaderEntry} (h : es[i]? = some e)
    (hh : e'.header = e.header) : hdrs (es.set i e') = hdrs es := by
  unfold hdrs
  rw [List.map_set, hh]
  apply List.ext_getElem?
  intro j
  rw [List.getElem?_set]
  split
  · rename_i hij; subst hij
    obtain ⟨hlt, rfl⟩ := List.getElem?_eq_some_iff.1 h
    simp [hlt]
  · rfl

/-! ### encTab -/

theorem encTab_max (t : Tab) (h : Hdr) : (encTab t h).max = t.max := by
  unfold encTab
  split
  · split <;> rfl
  · split
    · rfl
    · unfold appendHeader; simp only; split <;> rfl

theorem encTab_sizeOK {t : Tab} (hs : SizeOK t) (h : Hdr) : SizeOK (encTab t h) := by
  unfold encTab
  split
  · split
    · exact hs
    · rename_i e he
      unfold SizeOK at *
      simp only [hs, hdrs_set (e' := { e with referenced := true, emitted := true }) he rfl]
  · split
    · exact hs
    · obtain ⟨k, _, h2, _⟩ := appendHeader_spec hs { header := h, referenced := true, emitted := true }
      exact h2

/-- The three possible effects of encoding a header. -/
theorem encTab_cases {t : Tab} (_hs : SizeOK t) (h : Hdr) :
    (h ∈ hdrs t.entries ∧ hdrs (encTab t h).entries = hdrs t.entries ∧ (encTab t h).size = t.size) ∨
    (h ∉ hdrs t.entries ∧ h.1 = b!":path" ∧ encTab t h = t) ∨
    (h ∉ hdrs t.entries ∧ h.1 ≠ b!":path" ∧
      encTab t h = appendHeader t { header := h, referenced := true, emitted := true }) := by
  unfold encTab
  cases hf : findHeader t.entries h with
  | some i =>
    obtain ⟨e, he, hh⟩ := findHeader_some hf
    left
    have hm : h ∈ hdrs t.entries := mem_hdrs.2 ⟨e, List.mem_of_getElem? he, hh⟩
    simp only [he, hm, hdrs_set (e' := { e with referenced := true, emitted := true }) he rfl, and_self]
  | none =>
    have hm := findHeader_none'.1 hf
    right
    by_cases hp : h.1 = b!":path"
    · left; exact ⟨hm, hp, by simp [hp]⟩
    · right; exact ⟨hm, hp, by simp [hp]⟩

theorem encTab_nodup {t : Tab} (hs : SizeOK t) (hn : (hdrs t.entries).Nodup) (h : Hdr) :
    (hdrs (encTab t h).entries).Nodup := by
  rcases encTab_cases hs h with ⟨_, h2, _⟩ | ⟨_, _, h3⟩ | ⟨h1, _, h3⟩
  · rw [h2]; exact hn
  · rw [h3]; exact hn
  · rw [h3]
    obtain ⟨k, hk, _⟩ := appendHeader_spec hs { header := h, referenced := true, emitted := true }
    rcases hk with ⟨hk, _⟩ | ⟨hk, _⟩
    · rw [hk]
      have hsub : (hdrs (t.entries.drop k)).Sublist (hdrs t.entries) := (List.drop_sublist _ _).map _
      simp only [hdrs_append, hdrs_cons, hdrs_nil]
      rw [List.nodup_append]
      refine ⟨hn.sublist hsub, by simp, ?_⟩
      intro a ha b hb
      simp at hb; subst hb
      rintro rfl; exact h1 (hsub.subset ha)
    · rw [hk]; simp

/-- Entries after encoding `h`: old ones, or an emitted one for `h`. -/
theorem mem_encTab {t : Tab} {h : Hdr} {e : HeaderEntry} (hs : SizeOK t)
    (he : e ∈ (encTab t h).entries) :
    e ∈ t.entries ∨ (e.header = h ∧ e.referenced = true ∧ e.emitted = true) := by
  unfold encTab at he
  cases hf : findHeader t.entries h with
  | some i =>
    obtain ⟨e0, he0, hh⟩ := findHeader_some hf
    simp only [hf, he0] at he
    rcases List.mem_or_eq_of_mem_set he with h1 | h1
    · exact Or.inl h1
    · subst h1; exact Or.inr ⟨hh, rfl, rfl⟩
  | none =>
    simp only [hf] at he
    split at he
    · exact Or.inl he
    · obtain ⟨k, hk, _⟩ := appendHeader_spec hs { header := h, referenced := true, emitted := true }
      rcases hk with ⟨hk, _⟩ | ⟨hk, _⟩
      · rw [hk] at he
        rcases List.mem_append.1 he with h1 | h1
        · exact Or.inl (List.mem_of_mem_drop h1)
        · simp at h1; subst h1; exact Or.inr ⟨rfl, rfl, rfl⟩
      · rw [hk] at he; simp at he

/-! ### Message invariant -/

/-- Relation between the table, the kept references `R` and what was sent so far. -/
structure Inv (R out : List Hdr) (t : Tab) : Prop where
  size : SizeOK t
  nodup : (hdrs t.entries).Nodup
  kept : ∀ e ∈ t.entries, e.header ∈ R → e.referenced = true
  silent : ∀ e ∈ t.entries, e.referenced = true → e.emitted = false → e.header ∈ R
  sent : ∀ e ∈ t.entries, e.emitted = true → e.header ∈ out

theorem Inv.encTab {R out : List Hdr} {t : Tab} (hi : Inv R out t) (h : Hdr) :
    Inv R (out ++ [h]) (encTab t h) where
  size := encTab_sizeOK hi.size h
  nodup := encTab_nodup hi.size hi.nodup h
  kept e he hR := by
    rcases mem_encTab hi.size he with h1 | ⟨_, h2, _⟩
    · exact hi.kept e h1 hR
    · exact h2
  silent e he hr hm := by
    rcases mem_encTab hi.size he with h1 | ⟨_, _, h3⟩
    · exact hi.silent e h1 hr hm
    · rw [h3] at hm; cases hm
  sent e he hm := by
    rcases mem_encTab hi.size he with h1 | ⟨h2, _, _⟩
    · exact List.mem_append_left _ (hi.sent e h1 hm)
    · simp [h2]

theorem Inv.foldl {R : List Hdr} (hs : List Hdr) : ∀ {out : List Hdr} {t : Tab}, Inv R out t →
    Inv R (out ++ hs) (hs.foldl Http2.encTab t) := by
  induction hs with
  | nil => intro out t hi; simpa using hi
  | cons h hs ih => intro out t hi; simpa using ih (hi.encTab h)

theorem Inv.pass {R : List Hdr} (hs : List Hdr) : ∀ {out : List Hdr} {t : Tab}, Inv R out t →
    Inv R (out ++ (passTab t hs).2) (passTab t hs).1 := by
  induction hs with
  | nil => intro out t hi; simpa [passTab] using hi
  | cons h hs ih =>
    intro out t hi
    unfold passTab
    split
    · simpa using ih (hi.encTab h)
    · exact ih hi

theorem Inv.loop {R refs : List Hdr} : ∀ n {out : List Hdr} {t t' : Tab} {l : List Hdr}, Inv R out t →
    loopTab n t refs = some (t', l) → Inv R (out ++ l) t' := by
  intro n
  induction n with
  | zero => intro out t t' l _ h; simp [loopTab] at h
  | succ n ih =>
    intro out t t' l hi h
    unfold loopTab at h
    by_cases hr : refs = []
    · simp only [hr, if_true, Option.some.injEq, Prod.mk.injEq] at h
      obtain ⟨rfl, rfl⟩ := h; simpa using hi
    · simp only [hr, if_false] at h
      have hp := hi.pass refs
      by_cases hl : (passTab t refs).2 = []
      · simp only [hl, if_true, Option.some.injEq] at h
        rw [h] at hp; exact hp
      · simp only [hl, if_false] at h
        cases h2 : loopTab n (passTab t refs).1 refs with
        | none => simp [h2] at h
        | some q =>
          rw [h2] at h
          simp only [Option.some.injEq, Prod.mk.injEq] at h
          obtain ⟨rfl, rfl⟩ := h
          have := ih hp h2
          simpa [List.append_assoc] using this

theorem passTab_sub (hs : List Hdr) : ∀ t, (passTab t hs).2 ⊆ hs := by
  induction hs with
  | nil => intro t; simp [passTab]
  | cons h hs ih =>
    intro t
    unfold passTab
    split
    · simp only [List.cons_subset, List.mem_cons, true_or, true_and]
      exact fun x hx => List.mem_cons_of_mem _ (ih _ hx)
    · exact fun x hx => List.mem_cons_of_mem _ (ih _ hx)

/-- A pass that re-sends nothing found everything and changed nothing. -/
theorem passTab_nil (hs : List Hdr) : ∀ t, (passTab t hs).2 = [] →
    (passTab t hs).1 = t ∧ ∀ h ∈ hs, h ∈ hdrs t.entries := by
  induction hs with
  | nil => intro t _; simp [passTab]
  | cons h hs ih =>
    intro t hl
    unfold passTab at hl ⊢
    cases hf : findHeader t.entries h with
    | none => simp [hf] at hl
    | some i =>
      simp only [hf] at hl ⊢
      obtain ⟨h1, h2⟩ := ih t hl
      refine ⟨h1, ?_⟩
      intro x hx
      rcases List.mem_cons.1 hx with rfl | hx
      · by_contra hc
        rw [findHeader_none'.2 hc] at hf; cases hf
      · exact h2 x hx

theorem loopTab_sub (refs : List Hdr) : ∀ n t t' l, loopTab n t refs = some (t', l) →
    l ⊆ refs ∧ ∀ h ∈ refs, h ∈ hdrs t'.entries := by
  intro n
  induction n with
  | zero => intro t t' l h; simp [loopTab] at h
  | succ n ih =>
    intro t t' l h
    unfold loopTab at h
    by_cases hr : refs = []
    · simp only [hr, if_true, Option.some.injEq, Prod.mk.injEq] at h
      obtain ⟨rfl, rfl⟩ := h; simp [hr]
    · simp only [hr, if_false] at h
      have hps := passTab_sub refs t
      by_cases hl : (passTab t refs).2 = []
      · simp only [hl, if_true, Option.some.injEq] at h
        obtain ⟨h1, h2⟩ := passTab_nil refs t hl
        rw [h] at h1 hl
        dsimp only at h1 hl
        subst h1 hl
        exact ⟨by simp, h2⟩
      · simp only [hl, if_false] at h
        cases h2 : loopTab n (passTab t refs).1 refs with
        | none => simp [h2] at h
        | some q =>
          rw [h2] at h
          simp only [Option.some.injEq, Prod.mk.injEq] at h
          obtain ⟨rfl, rfl⟩ := h
          obtain ⟨h3, h4⟩ := ih _ _ _ h2
          exact ⟨List.append_subset.2 ⟨hps, h3⟩, h4⟩

/-! ### No header is re-sent twice -/

/-- Headers that the encoder never puts in a table of size `max`. -/
def Unaddable (max : Int) (r : Hdr) : Prop := r.1 = b!":path" ∨ max < hdrSize r

/-- All unaddable headers of `R` are in the table. -/
def PathsIn (R : List Hdr) (t : Tab) : Prop :=
  ∀ r ∈ R, Unaddable t.max r → r ∈ hdrs t.entries

theorem path_stays_out {t : Tab} (hs : SizeOK t) {r : Hdr} (hp : Unaddable t.max r)
    (hr : r ∉ hdrs t.entries) (h : Hdr) : r ∉ hdrs (encTab t h).entries := by
  rcases encTab_cases hs h with ⟨_, h2, _⟩ | ⟨_, _, h3⟩ | ⟨_, h2, h3⟩
  · rw [h2]; exact hr
  · rw [h3]; exact hr
  · rw [h3]
    obtain ⟨k, hk, hsz, hmax⟩ := appendHeader_spec hs { header := h, referenced := true, emitted := true }
    rcases hk with ⟨hk, hle⟩ | ⟨hk, _⟩
    · unfold SizeOK at hsz
      rw [hk] at hsz ⊢
      simp only [hdrs_append, hdrs_cons, hdrs_nil, List.mem_append, List.mem_singleton, not_or]
      refine ⟨fun hc => hr ?_, ?_⟩
      · exact ((List.drop_sublist _ _).map _).subset hc
      · rintro rfl
        rcases hp with hp | hp
        · exact h2 hp
        · simp only [hdrs_append, hdrs_cons, hdrs_nil, hdrsSize_append, hdrsSize_cons, hdrsSize_nil] at hsz
          omega
    · rw [hk]; simp

theorem pathsIn_back {R : List Hdr} {t : Tab} (hs : SizeOK t) {h : Hdr}
    (hq : PathsIn R (encTab t h)) : PathsIn R t := by
  intro r hr hp
  by_contra hc
  exact path_stays_out hs hp hc h (hq r hr (by rw [encTab_max]; exact hp))

theorem passTab_sizeOK (hs : List Hdr) : ∀ {t : Tab}, SizeOK t → SizeOK (passTab t hs).1 := by
  induction hs with
  | nil => intro t h; exact h
  | cons h hs ih =>
    intro t ht
    unfold passTab
    split
    · exact ih (encTab_sizeOK ht h)
    · exact ih ht

theorem passTab_nodup (hs : List Hdr) : ∀ {t : Tab}, SizeOK t → (hdrs t.entries).Nodup →
    (hdrs (passTab t hs).1.entries).Nodup := by
  induction hs with
  | nil => intro t _ h; exact h
  | cons h hs ih =>
    intro t ht hn
    unfold passTab
    split
    · exact ih (encTab_sizeOK ht h) (encTab_nodup ht hn h)
    · exact ih ht hn

theorem passTab_max (hs : List Hdr) : ∀ t : Tab, (passTab t hs).1.max = t.max := by
  induction hs with
  | nil => intro t; rfl
  | cons h hs ih =>
    intro t
    unfold passTab
    split
    · simp only; rw [ih, encTab_max]
    · exact ih t

theorem pathsIn_pass_back {R : List Hdr} (hs : List Hdr) : ∀ {t : Tab}, SizeOK t →
    PathsIn R (passTab t hs).1 → PathsIn R t := by
  induction hs with
  | nil => intro t _ h; exact h
  | cons h hs ih =>
    intro t ht hq
    unfold passTab at hq
    split at hq
    · exact pathsIn_back ht (ih (encTab_sizeOK ht h) hq)
    · exact ih ht hq

/-- The headers `L` re-sent so far form a suffix of the table. -/
structure Good (R L : List Hdr) (t : Tab) : Prop where
  size : SizeOK t
  nodup : (hdrs t.entries).Nodup
  sub : L ⊆ R
  suffix : ∃ A B, t.entries = A ++ B ∧ hdrs B = L

theorem Good.nodupL {R L t} (h : Good R L t) : L.Nodup := by
  obtain ⟨A, B, h1, h2⟩ := h.suffix
  have := h.nodup
  rw [h1, hdrs_append, h2, List.nodup_append] at this
  exact this.2.1

theorem Good.subT {R L t} (h : Good R L t) : L ⊆ hdrs t.entries := by
  obtain ⟨A, B, h1, h2⟩ := h.suffix
  rw [h1, hdrs_append, h2]; exact List.subset_append_right _ _

theorem Good.enc {R L : List Hdr} {t : Tab} (hg : Good R L t) (hR : (hdrsSize R : Int) ≤ t.max)
    {h : Hdr} (hin : h ∈ R) (hout : h ∉ hdrs t.entries) (hq : PathsIn R t) :
    Good R (L ++ [h]) (encTab t h) := by
  have hp : h.1 ≠ b!":path" := fun hp => hout (hq h hin (Or.inl hp))
  have hnd : (L ++ [h]).Nodup := by
    rw [List.nodup_append]
    refine ⟨hg.nodupL, by simp, ?_⟩
    intro a ha b hb; simp at hb; subst hb
    rintro rfl; exact hout (hg.subT ha)
  have hsub : L ++ [h] ⊆ R := by
    intro x hx
    rcases List.mem_append.1 hx with h1 | h1
    · exact hg.sub h1
    · simp at h1; subst h1; exact hin
  refine ⟨encTab_sizeOK hg.size h, encTab_nodup hg.size hg.nodup h, hsub, ?_⟩
  obtain ⟨A, B, h1, h2⟩ := hg.suffix
  have hle := hdrsSize_subset hnd hsub
  rcases encTab_cases hg.size h with ⟨h3, _, _⟩ | ⟨_, h3, _⟩ | ⟨_, _, h3⟩
  · exact absurd h3 hout
  · exact absurd h3 hp
  · rw [h3]
    obtain ⟨A', hA⟩ := appendHeader_keeps hg.size h1
      { header := h, referenced := true, emitted := true } (by
        rw [h2, entryLen_eq]
        simp only [hdrsSize_append, hdrsSize_cons, hdrsSize_nil] at hle
        dsimp only
        omega)
    exact ⟨A', B ++ [{ header := h, referenced := true, emitted := true }], hA, by simp [h2]⟩

theorem Good.pass {R : List Hdr} (hs : List Hdr) : ∀ {L : List Hdr} {t : Tab}, Good R L t →
    (hdrsSize R : Int) ≤ t.max → hs ⊆ R → PathsIn R (passTab t hs).1 →
    Good R (L ++ (passTab t hs).2) (passTab t hs).1 := by
  induction hs with
  | nil => intro L t hg _ _ _; simpa [passTab] using hg
  | cons h hs ih =>
    intro L t hg hR hsub hq
    have hsub' := List.cons_subset.1 hsub
    unfold passTab at hq ⊢
    cases hf : findHeader t.entries h with
    | none =>
      simp only [hf] at hq ⊢
      have hq1 := pathsIn_pass_back hs (encTab_sizeOK hg.size h) hq
      have hq2 := pathsIn_back hg.size hq1
      have := ih (hg.enc hR hsub'.1 (findHeader_none'.1 hf) hq2) (by rw [encTab_max]; exact hR) hsub'.2 hq
      simpa using this
    | some i =>
      simp only [hf] at hq ⊢
      exact ih hg hR hsub'.2 hq

/-- Tables that fit, or are empty. -/
def Fits (t : Tab) : Prop := t.size ≤ t.max ∨ t.entries = []

theorem encTab_fits {t : Tab} (hs : SizeOK t) (h : Hdr)
    (hf : Fits t ∨ (h ∉ hdrs t.entries ∧ h.1 ≠ b!":path")) : Fits (encTab t h) := by
  have key : Fits (appendHeader t { header := h, referenced := true, emitted := true }) := by
    obtain ⟨k, hk, _, hm⟩ := appendHeader_spec hs { header := h, referenced := true, emitted := true }
    unfold Fits; rw [hm]
    rcases hk with ⟨_, h1⟩ | ⟨h1, _⟩
    · exact Or.inl h1
    · exact Or.inr h1
  rcases encTab_cases hs h with ⟨h1, h2, h3⟩ | ⟨h1, h2, h3⟩ | ⟨_, _, h3⟩
  · rcases hf with hf | hf
    · rcases hf with hf | hf
      · left; rw [h3, encTab_max]; exact hf
      · rw [hf] at h1; simp at h1
    · exact absurd h1 hf.1
  · rcases hf with hf | hf
    · rw [h3]; exact hf
    · exact absurd h2 hf.2
  · rw [h3]; exact key

theorem passTab_fits (hs : List Hdr) : ∀ {t : Tab}, SizeOK t → Fits t → Fits (passTab t hs).1 := by
  induction hs with
  | nil => intro t _ h; exact h
  | cons h hs ih =>
    intro t ht hf
    unfold passTab
    split
    · exact ih (encTab_sizeOK ht h) (encTab_fits ht h (Or.inl hf))
    · exact ih ht hf

/-- A pass that re-sends something and keeps all `:path` references leaves a fitting table. -/
theorem passTab_fits' {R : List Hdr} (hs : List Hdr) : ∀ {t : Tab}, SizeOK t → hs ⊆ R →
    PathsIn R (passTab t hs).1 → (passTab t hs).2 ≠ [] → Fits (passTab t hs).1 := by
  induction hs with
  | nil => intro t _ _ _ h; simp [passTab] at h
  | cons h hs ih =>
    intro t ht hsub hq hl
    have hsub' := List.cons_subset.1 hsub
    unfold passTab at hq hl ⊢
    cases hf : findHeader t.entries h with
    | none =>
      simp only [hf] at hq hl ⊢
      have hq1 := pathsIn_pass_back hs (encTab_sizeOK ht h) hq
      have hq2 := pathsIn_back ht hq1
      have hout := findHeader_none'.1 hf
      exact passTab_fits hs (encTab_sizeOK ht h)
        (encTab_fits ht h (Or.inr ⟨hout, fun hp => hout (hq2 h hsub'.1 (Or.inl hp))⟩))
    | some i =>
      simp only [hf] at hq hl ⊢
      exact ih ht hsub'.2 hq hl

theorem loopTab_sizeOK (refs : List Hdr) : ∀ n t t' l, SizeOK t → loopTab n t refs = some (t', l) →
    SizeOK t' ∧ t'.max = t.max ∧ (Fits t → Fits t') ∧ (∀ R, PathsIn R t' → PathsIn R t) := by
  intro n
  induction n with
  | zero => intro t t' l _ h; simp [loopTab] at h
  | succ n ih =>
    intro t t' l ht h
    unfold loopTab at h
    by_cases hr : refs = []
    · simp only [hr, if_true, Option.some.injEq, Prod.mk.injEq] at h
      obtain ⟨rfl, rfl⟩ := h; exact ⟨ht, rfl, id, fun _ h => h⟩
    · simp only [hr, if_false] at h
      have hps := passTab_sizeOK refs ht
      have hpm := passTab_max refs t
      by_cases hl : (passTab t refs).2 = []
      · simp only [hl, if_true, Option.some.injEq] at h
        obtain ⟨h1, h2⟩ := passTab_nil refs t hl
        rw [h] at h1
        dsimp only at h1
        subst h1
        exact ⟨ht, rfl, id, fun _ h => h⟩
      · simp only [hl, if_false] at h
        cases h2 : loopTab n (passTab t refs).1 refs with
        | none => simp [h2] at h
        | some q =>
          rw [h2] at h
          simp only [Option.some.injEq, Prod.mk.injEq] at h
          obtain ⟨rfl, rfl⟩ := h
          obtain ⟨a1, a2, a3, a4⟩ := ih _ _ _ hps h2
          exact ⟨a1, a2.trans hpm, fun hf => a3 (passTab_fits refs ht hf),
            fun R hR => pathsIn_pass_back refs ht (a4 R hR)⟩

theorem Good.loop {R : List Hdr} : ∀ n {L : List Hdr} {t t' : Tab} {l : List Hdr}, Good R L t →
    (hdrsSize R : Int) ≤ t.max → PathsIn R t' → loopTab n t R = some (t', l) →
    Good R (L ++ l) t' := by
  intro n
  induction n with
  | zero => intro L t t' l _ _ _ h; simp [loopTab] at h
  | succ n ih =>
    intro L t t' l hg hR hq h
    unfold loopTab at h
    by_cases hr : R = []
    · simp only [hr, if_true, Option.some.injEq, Prod.mk.injEq] at h
      obtain ⟨rfl, rfl⟩ := h; simpa using hg
    · simp only [hr, if_false] at h
      have hpm := passTab_max R t
      by_cases hl : (passTab t R).2 = []
      · simp only [hl, if_true, Option.some.injEq] at h
        obtain ⟨h1, h2⟩ := passTab_nil R t hl
        rw [h] at h1 hl
        dsimp only at h1 hl
        subst h1 hl
        simpa using hg
      · simp only [hl, if_false] at h
        cases h2 : loopTab n (passTab t R).1 R with
        | none => simp [h2] at h
        | some q =>
          rw [h2] at h
          simp only [Option.some.injEq, Prod.mk.injEq] at h
          obtain ⟨rfl, rfl⟩ := h
          have hq1 : PathsIn R (passTab t R).1 :=
            (loopTab_sizeOK R n _ _ _ (passTab_sizeOK R hg.size) h2).2.2.2 R hq
          have hgp := hg.pass R hR (fun _ h => h) hq1
          have := ih hgp (by rw [hpm]; exact hR) hq h2
          simpa [List.append_assoc] using this

/-- Whenever the re-send loop ends, nothing was re-sent twice. -/
theorem loopTab_nodup {R : List Hdr} (hRn : R.Nodup) {n : Nat} {t t' : Tab} {l : List Hdr}
    (ht : SizeOK t) (hn : (hdrs t.entries).Nodup) (h : loopTab n t R = some (t', l)) : l.Nodup := by
  obtain ⟨hsub, hall⟩ := loopTab_sub R n t t' l h
  obtain ⟨hs', hm', hfit, hback⟩ := loopTab_sizeOK R n t t' l ht h
  have hq : PathsIn R t' := fun r hr _ => hall r hr
  by_cases hl : l = []
  · simp [hl]
  · have hfits : Fits t' := by
      cases n with
      | zero => simp [loopTab] at h
      | succ n =>
        have h0 := h
        unfold loopTab at h
        by_cases hr : R = []
        · simp only [hr, if_true, Option.some.injEq, Prod.mk.injEq] at h
          exact absurd h.2.symm hl
        · simp only [hr, if_false] at h
          by_cases hl2 : (passTab t R).2 = []
          · simp only [hl2, if_true, Option.some.injEq] at h
            rw [h] at hl2; exact absurd hl2 hl
          · simp only [hl2, if_false] at h
            cases h2 : loopTab n (passTab t R).1 R with
            | none => simp [h2] at h
            | some q =>
              rw [h2] at h
              simp only [Option.some.injEq, Prod.mk.injEq] at h
              obtain ⟨h3, _⟩ := h
              obtain ⟨b1, b2, b3, b4⟩ := loopTab_sizeOK R n _ _ _ (passTab_sizeOK R ht) h2
              rw [h3] at b3 b4
              exact b3 (passTab_fits' R ht (fun _ h => h) (b4 R hq) hl2)
    have hRt : (hdrsSize R : Int) ≤ t.max := by
      have h1 := hdrsSize_subset hRn (fun x hx => hall x hx)
      rw [← hm']
      rcases hfits with hf | hf
      · have : t'.size = hdrsSize (hdrs t'.entries) := hs'
        omega
      · exfalso
        obtain ⟨x, hx⟩ := List.exists_mem_of_ne_nil l hl
        have := hall x (hsub hx)
        rw [hf] at this; simp at this
    have hg : Good R [] t := ⟨ht, hn, by simp, t.entries, [], by simp, rfl⟩
    have := (hg.loop n hRt hq h).nodupL
    simpa using this

/-- Termination: if the kept references fit and none of them is a `:path`. -/
theorem loopTab_terminates {R : List Hdr} (hpath : ∀ r ∈ R, r.1 ≠ b!":path") : ∀ n {L : List Hdr} {t : Tab},
    Good R L t → (hdrsSize R : Int) ≤ t.max → R.length + 1 ≤ n + L.length →
    ∃ r, loopTab n t R = some r := by
  intro n
  induction n with
  | zero =>
    intro L t hg _ hlen
    have := (List.subperm_of_subset hg.nodupL hg.sub).length_le
    omega
  | succ n ih =>
    intro L t hg hR hlen
    have hq : PathsIn R (passTab t R).1 := by
      intro r hr hp
      exfalso
      rcases hp with hp | hp
      · exact hpath r hr hp
      · rw [passTab_max] at hp
        have := hdrsSize_subset (a := [r]) (b := R) (by simp) (by simpa using hr)
        simp at this; omega
    unfold loopTab
    by_cases hr : R = []
    · simp [hr]
    · simp only [hr, if_false]
      by_cases hl : (passTab t R).2 = []
      · simp [hl]
      · simp only [hl, if_false]
        have hgp := hg.pass R hR (fun _ h => h) hq
        obtain ⟨r, h2⟩ := ih hgp (by rw [passTab_max]; exact hR) (by
          have := List.length_pos_iff.2 hl
          simp only [List.length_append]; omega)
        rw [h2]; exact ⟨_, rfl⟩

/-- Divergence: a kept reference that cannot be added and has left the table is re-sent forever. -/
theorem loopTab_diverges {R : List Hdr} {r : Hdr} {t : Tab} (hr : r ∈ R) (hp : Unaddable t.max r)
    (ht : SizeOK t) (hout : r ∉ hdrs t.entries) (n : Nat) : loopTab n t R = none := by
  cases h : loopTab n t R with
  | none => rfl
  | some q =>
    obtain ⟨t', l⟩ := q
    have h1 := (loopTab_sizeOK R n t t' l ht h).2.2.2 [r] (by
      intro x hx _; simp at hx; subst hx
      exact (loopTab_sub R n t t' l h).2 x hr)
    exact absurd (h1 r (by simp) hp) hout

end Verif.Http2
