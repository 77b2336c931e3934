import Verif.Cpp.Parse
/-
What a text of header frames is (`IsLine`, `IsText`), independent of the parser, and the lemmas about
ParseStream.
-/
namespace Verif.Cpp
open Verif

/-! ### Spec -/

/-- A line that carries a header: the name, a colon, a space, the value.  The name has at least one
character and no colon after its first character. -/
def IsLine (line : Str) (kv : Hdr) : Prop :=
  line = kv.1 ++ [58, 32] ++ kv.2 ∧ kv.1 ≠ [] ∧ 58 ∉ kv.1.tail

/-- Lines made of blocks of headers with one empty line between two blocks. -/
inductive IsText : List Str → List (List Hdr) → Prop where
  | last : IsText [] [[]]
  | sep {ls bs} : IsText ls bs → IsText ([] :: ls) ([] :: bs)
  | line {l kv ls b bs} : IsLine l kv → IsText ls (b :: bs) → IsText (l :: ls) ((kv :: b) :: bs)

/-- The elements at the positions 0, 2, 4, … -/
def evens {α : Type} : List α → List α
  | [] => []
  | [a] => [a]
  | a :: _ :: l => a :: evens l

/-- The elements at the positions 1, 3, 5, … -/
def odds {α : Type} (l : List α) : List α := evens l.tail

/-- Without the last element if that is empty. -/
def trimLast {α : Type} (l : List (List α)) : List (List α) :=
  match l.getLast? with
  | some [] => l.dropLast
  | _ => l

/-! ### Lemmas -/

theorem IsText.ne_nil {ls : List Str} {bs : List (List Hdr)} (h : IsText ls bs) : bs ≠ [] := by
  cases h <;> simp

theorem evens_cons {α : Type} (a : α) (l : List α) : evens (a :: l) = a :: odds l := by
  cases l <;> simp [evens, odds]

theorem evens_one {α : Type} (a : α) : evens [a] = [a] := rfl
theorem odds_one {α : Type} (a : α) : odds [a] = [] := rfl

theorem evens_append {α : Type} (ds l : List α) :
    evens (ds ++ l) = evens ds ++ (if ds.length % 2 = 0 then evens l else odds l) ∧
    odds (ds ++ l) = odds ds ++ (if ds.length % 2 = 0 then odds l else evens l) := by
  induction ds with
  | nil => simp [evens, odds]
  | cons a ds ih =>
    constructor
    · rw [List.cons_append, evens_cons, evens_cons, ih.2]
      by_cases h : ds.length % 2 = 0
      · simp [h, show (ds.length + 1) % 2 = 1 by omega]
      · simp [h, show (ds.length + 1) % 2 = 0 by omega]
    · simp only [List.cons_append, odds, List.tail_cons]
      rw [ih.1]
      by_cases h : ds.length % 2 = 0
      · simp [h, show (ds.length + 1) % 2 = 1 by omega]
      · simp [h, show (ds.length + 1) % 2 = 0 by omega, odds]

theorem evens_length {α : Type} (l : List α) :
    (evens l).length = (l.length + 1) / 2 ∧ (odds l).length = l.length / 2 := by
  induction l with
  | nil => simp [evens, odds]
  | cons a l ih =>
    rw [evens_cons]
    constructor
    · rw [List.length_cons, ih.2, List.length_cons]; omega
    · simp only [odds, List.tail_cons, List.length_cons]; exact ih.1

/-- The state after the finished blocks `ds` with the headers `cur` of the next one. -/
def stOf (ds : List (List Hdr)) (cur : List Hdr) : PS :=
  { requests := evens (ds ++ [cur]), responses := odds (ds ++ [cur]),
    onResp := decide (ds.length % 2 = 1), len := ds.length / 2 }

theorem addLast_snoc (fs : List (List Hdr)) (f : List Hdr) (kv : Hdr) :
    addLast (fs ++ [f]) kv = .ok (fs ++ [f ++ [kv]]) := by
  simp [addLast]

theorem switch_stOf (ds : List (List Hdr)) (cur : List Hdr) :
    switchFrame (stOf ds cur) = stOf (ds ++ [cur]) [] := by
  unfold switchFrame stOf
  have e1 := evens_append ds [cur]
  have e2 := evens_append (ds ++ [cur]) [([] : List Hdr)]
  have l := evens_length ds
  by_cases h : ds.length % 2 = 0
  · have h1 : ¬ ds.length % 2 = 1 := by omega
    have h2 : (ds.length + 1) % 2 = 1 := by omega
    have hd : (ds.length + 1) / 2 = ds.length / 2 := by omega
    simp only [h, if_true, List.length_append, List.length_singleton, h2] at e1 e2
    simp only [e1.1, e1.2, e2.1, e2.2, evens_one, odds_one, List.append_nil, List.length_append,
      List.length_singleton, h1, h2, hd, getFrame, l.2]
    simp
  · have h1 : ds.length % 2 = 1 := by omega
    have h2 : (ds.length + 1) % 2 = 0 := by omega
    have hd : (ds.length + 1) / 2 = ds.length / 2 + 1 := by omega
    simp only [h, if_false, List.length_append, List.length_singleton, h2, if_true] at e1 e2
    simp only [e1.1, e1.2, e2.1, e2.2, evens_one, odds_one, List.append_nil, List.length_append,
      List.length_singleton, h1, h2, hd, getFrame, l.1]
    simp

theorem findColon_some {k v : Str} (h0 : k ≠ []) (h : 58 ∉ k.tail) :
    findColon (k ++ [58, 32] ++ v) = some k.length := by
  cases k with
  | nil => exact absurd rfl h0
  | cons c t =>
    simp only [List.tail_cons] at h
    have : List.findIdx? (· == 58) (t ++ (58 :: 32 :: v)) = some t.length := by
      rw [List.findIdx?_append]
      have : List.findIdx? (· == 58) t = none := by
        rw [List.findIdx?_eq_none_iff]
        intro x hx
        simp only [beq_eq_false_iff_ne]
        rintro rfl; exact h hx
      rw [this]
      simp [List.findIdx?_cons]
    simp [findColon, this]

theorem parseLine_good {l : Str} {kv : Hdr} (h : IsLine l kv) (ds : List (List Hdr)) (cur : List Hdr) :
    parseLine (stOf ds cur) l = .ok (some (stOf ds (cur ++ [kv]))) := by
  obtain ⟨rfl, h0, h1⟩ := h
  obtain ⟨k, v⟩ := kv
  simp only at h0 h1 ⊢
  have hne : ¬ (k ++ [58, 32] ++ v = []) := by simp
  unfold parseLine
  rw [if_neg hne, findColon_some h0 h1]
  have hlen : ¬ (k.length + 1 > (k ++ [58, 32] ++ v).length) := by simp
  have hget : (k ++ [58, 32] ++ v).getD (k.length + 1) 0 = 32 := by
    rw [List.append_assoc]
    simp [List.getD]
  have htake : (k ++ [58, 32] ++ v).take k.length = k := by
    rw [List.append_assoc]; simp
  have hdrop : (k ++ [58, 32] ++ v).drop (k.length + 2) = v := by
    have : k.length + 2 = (k ++ [58, 32]).length := by simp
    rw [this]; exact List.drop_left
  simp only [hlen, if_false, hget, ne_eq, not_true, htake, hdrop]
  have e1 := evens_append ds [cur]
  have e2 := evens_append ds [cur ++ [(k, v)]]
  by_cases h : ds.length % 2 = 0
  · have h1 : ¬ ds.length % 2 = 1 := by omega
    simp only [h, if_true] at e1 e2
    simp [stOf, h1, e1.1, e1.2, e2.1, e2.2, evens_one, odds_one, addLast_snoc, bind, Except.bind]
  · have h1 : ds.length % 2 = 1 := by omega
    simp only [h, if_false] at e1 e2
    simp [stOf, h1, e1.1, e1.2, e2.1, e2.2, evens_one, odds_one, addLast_snoc, bind, Except.bind]

theorem findColon_spec {l : Str} {c : Nat} (h : findColon l = some c) :
    ∃ k v, l = k ++ 58 :: v ∧ k.length = c ∧ k ≠ [] ∧ 58 ∉ k.tail := by
  cases l with
  | nil => simp [findColon] at h
  | cons a t =>
    simp only [findColon, List.tail_cons, Option.map_eq_some_iff] at h
    obtain ⟨i, hi, rfl⟩ := h
    rw [List.findIdx?_eq_some_iff_getElem] at hi
    obtain ⟨hlt, he, hall⟩ := hi
    simp only [beq_iff_eq] at he
    refine ⟨a :: t.take i, t.drop (i + 1), ?_, ?_, by simp, ?_⟩
    · rw [List.cons_append, ← he, List.getElem_cons_drop, List.take_append_drop]
    · simp; omega
    · simp only [List.tail_cons]
      intro hm
      obtain ⟨j, hj, e⟩ := List.mem_iff_getElem.1 hm
      simp only [List.length_take] at hj
      rw [List.getElem_take] at e
      exact hall j (by omega) (by simp [e])

theorem parseLine_bad {l : Str} (s : PS) (h0 : l ≠ []) (h : ¬ ∃ kv, IsLine l kv) :
    parseLine s l = .ok none := by
  unfold parseLine
  rw [if_neg h0]
  cases hc : findColon l with
  | none => rfl
  | some c =>
    obtain ⟨k, v, rfl, rfl, hk, ht⟩ := findColon_spec hc
    have hlen : ¬ (k.length + 1 > (k ++ 58 :: v).length) := by simp
    simp only [hlen, if_false]
    rw [if_pos]
    intro e
    apply h
    cases v with
    | nil =>
      simp [List.getD] at e
    | cons x v =>
      have : (k ++ 58 :: x :: v).getD (k.length + 1) 0 = x := by
        simp [List.getD]
      rw [this] at e
      subst e
      exact ⟨(k, v), by simp, hk, ht⟩

theorem parseLines_text {ls : List Str} {bs : List (List Hdr)} (h : IsText ls bs) :
    ∀ (ds : List (List Hdr)) (cur b : List Hdr) (bs' : List (List Hdr)), bs = b :: bs' →
      parseLines (stOf ds cur) ls =
        .ok (1, trimLast (evens (ds ++ (cur ++ b) :: bs')), odds (ds ++ (cur ++ b) :: bs')) := by
  induction h with
  | last =>
    intro ds cur b bs' e
    simp only [List.cons.injEq] at e
    obtain ⟨rfl, rfl⟩ := e
    simp only [List.append_nil, parseLines, stOf, trimLast]
    have hne : evens (ds ++ [cur]) ≠ [] := by
      intro e
      have := (evens_length (ds ++ [cur])).1
      rw [e] at this
      simp at this
      omega
    cases hl : (evens (ds ++ [cur])).getLast? with
    | none => exact absurd (List.getLast?_eq_none_iff.1 hl) hne
    | some f =>
      cases f with
      | nil => simp
      | cons x f => simp
  | sep _ ih =>
    rename_i ls bs ht
    intro ds cur b bs' e
    simp only [List.cons.injEq] at e
    obtain ⟨rfl, rfl⟩ := e
    have hp : parseLine (stOf ds cur) [] = .ok (some (stOf (ds ++ [cur]) [])) := by
      simp [parseLine, switch_stOf]
    simp only [parseLines, bind, Except.bind, hp]
    cases bs with
    | nil => cases ht
    | cons b bs =>
      rw [ih _ _ b bs rfl]
      simp
  | line hl _ ih =>
    intro ds cur b bs' e
    simp only [List.cons.injEq] at e
    obtain ⟨rfl, rfl⟩ := e
    simp only [parseLines, bind, Except.bind, parseLine_good hl]
    rw [ih _ _ _ _ rfl]
    simp

/-- Every list of lines is either good up to the end or has a first bad line. -/
theorem text_or_bad (ls : List Str) :
    (∃ b bs, IsText ls (b :: bs)) ∨ ∃ l ∈ ls, l ≠ [] ∧ ¬ ∃ kv, IsLine l kv := by
  induction ls with
  | nil => exact Or.inl ⟨[], [], IsText.last⟩
  | cons l ls ih =>
    by_cases hb : l ≠ [] ∧ ¬ ∃ kv, IsLine l kv
    · exact Or.inr ⟨l, by simp, hb⟩
    · rcases ih with ⟨b, bs, h⟩ | ⟨l', hm, h⟩
      · left
        by_cases hl : l = []
        · subst hl; exact ⟨[], b :: bs, IsText.sep h⟩
        · have : ∃ kv, IsLine l kv := by
            by_contra hc; exact hb ⟨hl, hc⟩
          obtain ⟨kv, hkv⟩ := this
          exact ⟨kv :: b, bs, IsText.line hkv h⟩
      · exact Or.inr ⟨l', by simp [hm], h⟩

theorem parseLines_bad (ls : List Str) (h : ∃ l ∈ ls, l ≠ [] ∧ ¬ ∃ kv, IsLine l kv)
    (ds : List (List Hdr)) (cur : List Hdr) : ∃ q r, parseLines (stOf ds cur) ls = .ok (0, q, r) := by
  induction ls generalizing ds cur with
  | nil => obtain ⟨l, hm, _⟩ := h; simp at hm
  | cons l ls ih =>
    by_cases hb : l ≠ [] ∧ ¬ ∃ kv, IsLine l kv
    · simp only [parseLines, bind, Except.bind, parseLine_bad _ hb.1 hb.2]
      exact ⟨_, _, rfl⟩
    · have h' : ∃ l ∈ ls, l ≠ [] ∧ ¬ ∃ kv, IsLine l kv := by
        obtain ⟨l', hm, hh⟩ := h
        rcases List.mem_cons.1 hm with rfl | hm
        · exact absurd hh hb
        · exact ⟨l', hm, hh⟩
      by_cases hl : l = []
      · subst hl
        have hp : parseLine (stOf ds cur) [] = .ok (some (stOf (ds ++ [cur]) [])) := by
          simp [parseLine, switch_stOf]
        simp only [parseLines, bind, Except.bind, hp]
        exact ih h' _ _
      · have : ∃ kv, IsLine l kv := by
          by_contra hc; exact hb ⟨hl, hc⟩
        obtain ⟨kv, hkv⟩ := this
        simp only [parseLines, bind, Except.bind, parseLine_good hkv]
        exact ih h' _ _

theorem parseStream_eq (text : Str) : parseStream [] [] text = parseLines (stOf [] []) (splitOn 10 text) := by
  simp [parseStream, stOf, getFrame, evens, odds]

/-! ### The translator -/

/-- A header the text can carry. -/
def Plain (kv : Hdr) : Prop :=
  kv.1 ≠ [] ∧ 58 ∉ kv.1.tail ∧ 10 ∉ kv.1 ∧ 10 ∉ kv.2 ∧ 0 ∉ kv.1 ∧ 0 ∉ kv.2

theorem formatIt_lines (f : List Hdr) (h : ∀ kv ∈ f, Plain kv) (rest : Str) :
    splitOn 10 (formatIt f ++ rest) = f.map (fun kv => kv.1 ++ [58, 32] ++ kv.2) ++ splitOn 10 rest := by
  induction f with
  | nil => simp [formatIt]
  | cons kv f ih =>
    obtain ⟨_, _, h1, h2, _, _⟩ := h kv (by simp)
    have hn : 10 ∉ kv.1 ++ [58, 32] ++ kv.2 := by simp [h1, h2]
    have e : formatIt (kv :: f) ++ rest = (kv.1 ++ [58, 32] ++ kv.2) ++ 10 :: (formatIt f ++ rest) := by
      simp [formatIt]
    rw [e, splitOn_append hn, ih (fun x hx => h x (by simp [hx]))]
    simp

theorem isText_frame (f : List Hdr) (h : ∀ kv ∈ f, Plain kv) {ls b bs} (ht : IsText ls (b :: bs)) :
    IsText (f.map (fun kv => kv.1 ++ [58, 32] ++ kv.2) ++ ls) ((f ++ b) :: bs) := by
  induction f with
  | nil => simpa using ht
  | cons kv f ih =>
    obtain ⟨h0, h1, _⟩ := h kv (by simp)
    exact IsText.line ⟨rfl, h0, h1⟩ (ih (fun x hx => h x (by simp [hx])))

/-- Requests and responses in turn. -/
def interleave : List (List Hdr) → List (List Hdr) → List (List Hdr)
  | q :: qs, r :: rs => q :: r :: interleave qs rs
  | _, _ => []

theorem splitOn_nl (s : Str) : splitOn 10 (10 :: s) = [] :: splitOn 10 s := by simp [splitOn]

theorem translate_text (qs rs : List (List Hdr)) (hl : qs.length = rs.length)
    (hq : ∀ f ∈ qs, ∀ kv ∈ f, Plain kv) (hr : ∀ f ∈ rs, ∀ kv ∈ f, Plain kv) {t : Str}
    (ht : translate qs rs = .ok t) : IsText (splitOn 10 t) (interleave qs rs ++ [[], []]) := by
  induction qs generalizing rs t with
  | nil =>
    simp only [translate, Except.ok.injEq] at ht
    subst ht
    simpa [splitOn, interleave] using IsText.sep IsText.last
  | cons q qs ih =>
    cases rs with
    | nil => simp at hl
    | cons r rs =>
      simp only [List.length_cons, Nat.add_right_cancel_iff] at hl
      simp only [translate, bind, Except.bind] at ht
      cases hr' : translate qs rs with
      | error e => simp [hr'] at ht
      | ok rest =>
        simp only [hr', Except.ok.injEq] at ht
        subst ht
        have ih' := ih rs hl (fun f hf => hq f (by simp [hf])) (fun f hf => hr f (by simp [hf])) hr'
        have e : formatIt q ++ [10] ++ formatIt r ++ [10] ++ rest =
            formatIt q ++ (10 :: (formatIt r ++ (10 :: rest))) := by simp
        rw [e, formatIt_lines q (hq q (by simp)), splitOn_nl, formatIt_lines r (hr r (by simp)), splitOn_nl]
        have h1 := isText_frame r (hr r (by simp)) (IsText.sep ih')
        have h2 := isText_frame q (hq q (by simp)) (IsText.sep h1)
        simpa [interleave] using h2

theorem translate_total (qs rs : List (List Hdr)) (hl : qs.length = rs.length) : ∃ t, translate qs rs = .ok t := by
  induction qs generalizing rs with
  | nil => exact ⟨[], rfl⟩
  | cons q qs ih =>
    cases rs with
    | nil => simp at hl
    | cons r rs =>
      obtain ⟨t, ht⟩ := ih rs (by simpa using hl)
      exact ⟨formatIt q ++ [10] ++ formatIt r ++ [10] ++ t, by simp only [translate, bind, Except.bind, ht]⟩

theorem formatIt_noNul (f : List Hdr) (h : ∀ kv ∈ f, Plain kv) : 0 ∉ formatIt f := by
  intro hm
  simp only [formatIt, List.mem_flatMap] at hm
  obtain ⟨kv, hkv, hm⟩ := hm
  obtain ⟨_, _, _, _, h1, h2⟩ := h kv hkv
  simp [h1, h2] at hm

theorem translate_noNul (qs rs : List (List Hdr)) (hq : ∀ f ∈ qs, ∀ kv ∈ f, Plain kv)
    (hr : ∀ f ∈ rs, ∀ kv ∈ f, Plain kv) {t : Str} (ht : translate qs rs = .ok t) : 0 ∉ t := by
  induction qs generalizing rs t with
  | nil => simp only [translate, Except.ok.injEq] at ht; subst ht; simp
  | cons q qs ih =>
    cases rs with
    | nil => simp [translate] at ht
    | cons r rs =>
      simp only [translate, bind, Except.bind] at ht
      cases hr' : translate qs rs with
      | error e => simp [hr'] at ht
      | ok rest =>
        simp only [hr', Except.ok.injEq] at ht
        subst ht
        have h1 := ih rs (fun f hf => hq f (by simp [hf])) (fun f hf => hr f (by simp [hf])) hr'
        have h2 := formatIt_noNul q (hq q (by simp))
        have h3 := formatIt_noNul r (hr r (by simp))
        simp [h1, h2, h3]

theorem takeWhile_noNul {s : Str} (h : 0 ∉ s) : s.takeWhile (· ≠ 0) = s := by
  induction s with
  | nil => rfl
  | cons x s ih =>
    simp only [List.mem_cons, not_or] at h
    rw [List.takeWhile_cons, if_pos (by simpa using fun e => h.1 e.symm), ih h.2]

theorem noNul_of_takeWhile {s : Str} (h : s.takeWhile (· ≠ 0) = s) : 0 ∉ s := by
  induction s with
  | nil => simp
  | cons x s ih =>
    by_cases hx : x = 0
    · simp [hx] at h
    · rw [List.takeWhile_cons, if_pos (by simpa using hx)] at h
      have := ih (List.tail_eq_of_cons_eq h)
      simp [this, Ne.symm hx]

theorem readPipe_length (chunks : List Str) : (readPipe chunks).length ≤ chunks.flatten.length := by
  induction chunks with
  | nil => simp [readPipe]
  | cons c cs ih =>
    have := (List.takeWhile_prefix (l := c) (fun x : Nat => decide (x ≠ 0))).length_le
    simp only [readPipe, List.flatMap_cons, List.length_append, List.flatten_cons] at ih ⊢
    omega

theorem readPipe_iff (chunks : List Str) : readPipe chunks = chunks.flatten ↔ 0 ∉ chunks.flatten := by
  induction chunks with
  | nil => simp [readPipe]
  | cons c cs ih =>
    constructor
    · intro h
      have hp := (List.takeWhile_prefix (l := c) (fun x : Nat => decide (x ≠ 0))).length_le
      have hl := readPipe_length cs
      have hlen := congrArg List.length h
      simp only [readPipe, List.flatMap_cons, List.length_append, List.flatten_cons] at hlen hl
      have hc : c.takeWhile (· ≠ 0) = c :=
        (List.takeWhile_prefix _).eq_of_length (by omega)
      have hr : readPipe cs = cs.flatten := by
        simp only [readPipe, List.flatMap_cons, List.flatten_cons, hc] at h ⊢
        exact List.append_cancel_left h
      have h0 : 0 ∉ c := noNul_of_takeWhile hc
      simp [h0, ih.1 hr]
    · intro h
      simp only [List.flatten_cons, List.mem_append, not_or] at h
      have := ih.2 h.2
      simp only [readPipe, List.flatMap_cons, List.flatten_cons] at this ⊢
      rw [this, takeWhile_noNul h.1]

theorem evens_interleave (qs rs : List (List Hdr)) (hl : qs.length = rs.length) (t : List (List Hdr)) :
    evens (interleave qs rs ++ t) = qs ++ evens t ∧ odds (interleave qs rs ++ t) = rs ++ odds t := by
  induction qs generalizing rs with
  | nil => cases rs <;> simp_all [interleave]
  | cons q qs ih =>
    cases rs with
    | nil => simp at hl
    | cons r rs =>
      have := ih rs (by simpa using hl)
      simp only [interleave, List.cons_append]
      rw [evens_cons]
      constructor
      · simp only [odds, List.tail_cons]
        rw [this.1]
      · simp only [odds, List.tail_cons]
        rw [evens_cons, this.2]
        simp [odds]

end Verif.Cpp
