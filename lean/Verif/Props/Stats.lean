import Verif.Stats.WordFreak
import Verif.PyLemmas
/-
Properties C111 and C112: the letter statistics of the delta codecs.
-/
namespace Verif.Props
open Verif Verif.Stats

/-! ### What is to be counted -/

/-- The strings in a list of operations: every key and every value that is there. -/
def strings111 (ops : List Seen) : List Str := ops.flatMap fun op => op.key.toList ++ op.val.toList

/-- Byte strings. -/
def Bytes111 (ops : List Seen) : Prop := ∀ s ∈ strings111 ops, ∀ c ∈ s, c < 256

/-- The statistics are those of these strings: how often each character occurs, how many strings there are, and how many
there are of each length. -/
def Counts111 (w : Freaks) (ss : List Str) : Prop :=
  w.chars.length = 257 ∧
  (∀ c < 256, w.chars[c]? = some (ss.flatten.count c)) ∧
  w.chars[256]? = some ss.length ∧
  (∀ n, w.lens.get? n = if ss.countP (·.length = n) = 0 then none else some (ss.countP (·.length = n)))

/-! ### Counting -/

theorem counts111_init : Counts111 Freaks.init [] := by
  refine ⟨List.length_replicate .., fun c hc => ?_, ?_, fun n => rfl⟩
  · simp only [Freaks.init, List.getElem?_replicate]
    rw [if_pos (by omega)]
    rfl
  · simp only [Freaks.init, List.getElem?_replicate]
    rw [if_pos (by omega)]
    rfl

theorem lookChars_ok : ∀ (s : Str) (l : List Nat), l.length = 257 → (∀ c ∈ s, c < 256) →
    ∃ l', lookChars l s = .ok l' ∧ l'.length = 257 ∧
      ∀ i, l'[i]? = l[i]?.map (· + s.count i)
  | [], l, hl, _ => ⟨l, rfl, hl, fun i => by simp⟩
  | c :: s, l, hl, hs => by
    have hc : c < 256 := hs c (by simp)
    have hc' : c < l.length := by omega
    have e : bump l c = .ok (l.set c (l[c] + 1)) := by
      simp only [bump, List.getElem?_eq_getElem hc']
    obtain ⟨l', h1, h2, h3⟩ := lookChars_ok s (l.set c (l[c] + 1)) (by simpa using hl) (fun d hd => hs d (by simp [hd]))
    refine ⟨l', by simp only [lookChars, bind, Except.bind, e, h1], h2, fun i => ?_⟩
    rw [h3, List.getElem?_set]
    by_cases hi : c = i
    · subst hi
      simp only [if_pos rfl, if_pos hc', List.getElem?_eq_getElem hc', Option.map_some, List.count_cons_self]
      exact congrArg some (by show l[c] + 1 + s.count c = l[c] + (s.count c + 1); omega)
    · rw [if_neg hi]
      have : (c :: s).count i = s.count i := by
        rw [List.count_cons, if_neg (by simpa using hi)]; rfl
      rw [this]

theorem dict_get_set {α β : Type} [DecidableEq α] : ∀ (d : Dict α β) (x y : α) (v : β),
    (d.set x v).get? y = if x = y then some v else d.get? y
  | [], x, y, v => by simp [Dict.set, Dict.get?]
  | (k, u) :: d, x, y, v => by
    by_cases hk : k = x
    · subst hk
      by_cases hy : k = y <;> simp [Dict.set, Dict.get?, hy]
    · by_cases hy : k = y
      · subst hy
        have : ¬ x = k := fun h => hk h.symm
        simp [Dict.set, Dict.get?, hk, this]
      · simp only [Dict.set, if_neg hk, Dict.get?, if_neg hy]
        exact dict_get_set d x y v

theorem lookStr_ok (w : Freaks) (ss : List Str) (s : Str) (h : Counts111 w ss) (hs : ∀ c ∈ s, c < 256) :
    ∃ w', lookStr w s = .ok w' ∧ Counts111 w' (ss ++ [s]) := by
  obtain ⟨hl, hc, hn, hlen⟩ := h
  have h256 : 256 < w.chars.length := by omega
  have e : bump w.chars 256 = .ok (w.chars.set 256 (w.chars[256] + 1)) := by
    simp only [bump, List.getElem?_eq_getElem h256]
  obtain ⟨l', h1, h2, h3⟩ := lookChars_ok s (w.chars.set 256 (w.chars[256] + 1)) (by simpa using hl) hs
  refine ⟨_, by simp only [lookStr, bind, Except.bind, e, h1]; rfl, h2, fun c hc' => ?_, ?_, fun n => ?_⟩
  · rw [h3, List.getElem?_set, if_neg (by omega), hc c hc']
    simp [List.count_append]
  · have : s.count 256 = 0 := List.count_eq_zero.mpr (fun hm => absurd (hs _ hm) (by omega))
    rw [h3, List.getElem?_set, if_pos rfl, if_pos h256, this]
    rw [List.getElem?_eq_getElem h256] at hn
    simp only [Option.some.injEq] at hn
    simp [hn]
  · simp only [dict_get_set, hlen, List.countP_append, List.countP_cons, List.countP_nil]
    by_cases hsn : s.length = n
    · subst hsn
      simp only [if_true, decide_true, Nat.zero_add, Nat.add_eq_zero_iff, Nat.one_ne_zero, and_false, if_false]
      by_cases h0 : ss.countP (fun t => decide (t.length = s.length)) = 0
      · simp [h0]
      · simp [h0]
    · simp only [if_neg hsn, hsn, decide_false, Nat.add_zero, Nat.zero_add, Bool.false_eq_true, if_false]

theorem lookField_ok (w : Freaks) (ss : List Str) (o : Option Str) (h : Counts111 w ss)
    (hs : ∀ s ∈ o.toList, ∀ c ∈ s, c < 256) :
    ∃ w', lookField w o = .ok w' ∧ Counts111 w' (ss ++ o.toList) := by
  cases o with
  | none => exact ⟨w, rfl, by simpa using h⟩
  | some s => exact lookStr_ok w ss s h (hs s (by simp))

theorem lookAt_ok : ∀ (ops : List Seen) (w : Freaks) (ss : List Str), Counts111 w ss → Bytes111 ops →
    ∃ w', lookAt w ops = .ok w' ∧ Counts111 w' (ss ++ strings111 ops)
  | [], w, ss, h, _ => ⟨w, rfl, by simpa [strings111] using h⟩
  | op :: ops, w, ss, h, hb => by
    have hb' : ∀ s ∈ op.key.toList ++ op.val.toList ++ strings111 ops, ∀ c ∈ s, c < 256 := by
      simpa [Bytes111, strings111] using hb
    obtain ⟨w1, e1, h1⟩ := lookField_ok w ss op.key h (fun s hs => hb' s (by simp [hs]))
    obtain ⟨w2, e2, h2⟩ := lookField_ok w1 _ op.val h1 (fun s hs => hb' s (by simp [hs]))
    obtain ⟨w3, e3, h3⟩ := lookAt_ok ops w2 _ h2 (fun s hs => hb' s (by simp [hs]))
    refine ⟨w3, by simp only [lookAt, bind, Except.bind, e1, e2, e3], ?_⟩
    simpa [strings111, List.append_assoc] using h3

/-- What was looked at under one description. -/
def under111 (calls : List (Str × List Seen)) (d : Str) : List Str :=
  (calls.filter (·.1 = d)).flatMap fun c => strings111 c.2

/-- The state of the statistics: a description is known once it was used, and its counts are those of its strings. -/
def State111 (wf : Dict Str Freaks) (calls : List (Str × List Seen)) : Prop :=
  ∀ d, match wf.get? d with
    | none => d ∉ calls.map (·.1)
    | some w => d ∈ calls.map (·.1) ∧ Counts111 w (under111 calls d)

theorem process_ok (wf : Dict Str Freaks) (calls : List (Str × List Seen)) (d : Str) (ops : List Seen)
    (h : State111 wf calls) (hb : Bytes111 ops) :
    ∃ wf', process wf d ops = .ok wf' ∧ State111 wf' (calls ++ [(d, ops)]) := by
  have key : ∃ wf1 w, (if wf.has d then wf else wf.set d Freaks.init) = wf1 ∧ wf1.get? d = some w ∧
      Counts111 w (under111 calls d) ∧ ∀ d', d' ≠ d → wf1.get? d' = wf.get? d' := by
    have hd := h d
    cases hg : wf.get? d with
    | none =>
      rw [hg] at hd
      refine ⟨wf.set d Freaks.init, Freaks.init, by simp [Dict.has, hg], by simp [dict_get_set], ?_, fun d' hd' => ?_⟩
      · have : calls.filter (fun c => decide (c.1 = d)) = [] := by
          rw [List.filter_eq_nil_iff]
          intro c hc
          have : c.1 ≠ d := fun e => hd (by rw [← e]; exact List.mem_map_of_mem hc)
          simpa using this
        simp only [under111, this, List.flatMap_nil]
        exact counts111_init
      · rw [dict_get_set, if_neg (fun e => hd' e.symm)]
    | some w =>
      rw [hg] at hd
      exact ⟨wf, w, by simp [Dict.has, hg], hg, hd.2, fun _ _ => rfl⟩
  obtain ⟨wf1, w, e1, e2, e3, e4⟩ := key
  obtain ⟨w', e5, e6⟩ := lookAt_ok ops w _ e3 hb
  refine ⟨wf1.set d w', by simp only [process, bind, Except.bind, e1, e2, e5]; rfl, fun d' => ?_⟩
  rw [dict_get_set]
  by_cases hd' : d = d'
  · subst hd'
    simp only [if_pos trivial]
    refine ⟨by simp, ?_⟩
    simpa [under111, List.filter_append, List.filter_cons] using e6
  · rw [if_neg hd', e4 d' (fun e => hd' e.symm)]
    have hst := h d'
    cases hg : wf.get? d' with
    | none =>
      rw [hg] at hst
      simp only [List.map_append, List.map_cons, List.map_nil, List.mem_append, List.mem_singleton, not_or]
      exact ⟨hst, fun e => hd' e.symm⟩
    | some w0 =>
      rw [hg] at hst
      refine ⟨by simp only [List.map_append, List.mem_append]; exact Or.inl hst.1, ?_⟩
      have : under111 (calls ++ [(d, ops)]) d' = under111 calls d' := by
        simp [under111, List.filter_append, List.filter_cons, hd']
      rw [this]
      exact hst.2

theorem processAll_ok : ∀ (more calls : List (Str × List Seen)) (wf : Dict Str Freaks), State111 wf calls →
    (∀ c ∈ more, Bytes111 c.2) → ∃ wf', processAll wf more = .ok wf' ∧ State111 wf' (calls ++ more)
  | [], calls, wf, h, _ => ⟨wf, rfl, by simpa using h⟩
  | (d, ops) :: more, calls, wf, h, hb => by
    obtain ⟨wf1, e1, h1⟩ := process_ok wf calls d ops h (hb (d, ops) (by simp))
    obtain ⟨wf2, e2, h2⟩ := processAll_ok more _ wf1 h1 (fun c hc => hb c (by simp [hc]))
    exact ⟨wf2, by simp only [processAll, bind, Except.bind, e1, e2], by simpa using h2⟩

/-- C111: whatever operations are looked at, under whatever descriptions and in whatever order, no call raises, and
afterwards there are statistics for exactly the descriptions that were used; for each they give exactly how often every
character occurs in the keys and values looked at under it, how many these are, and how many there are of each length. -/
theorem C111 (calls : List (Str × List Seen)) (hb : ∀ c ∈ calls, Bytes111 c.2) :
    ∃ wf, processAll [] calls = .ok wf ∧ ∀ d,
      (wf.get? d = none ↔ d ∉ calls.map (·.1)) ∧
      ∀ w, wf.get? d = some w → Counts111 w (under111 calls d) := by
  obtain ⟨wf, e, h⟩ := processAll_ok calls [] [] (fun d => by simp [Dict.get?]) hb
  refine ⟨wf, e, fun d => ?_⟩
  have := h d
  simp only [List.nil_append] at this
  cases hg : wf.get? d with
  | none => rw [hg] at this; exact ⟨⟨fun _ => this, fun _ => rfl⟩, fun w hw => by cases hw⟩
  | some w =>
    rw [hg] at this
    refine ⟨⟨fun h => (by cases h), fun h => absurd this.1 h⟩, fun w' hw => ?_⟩
    cases hw
    exact this.2

/-- Two codecs, three calls, five strings. -/
def calls111 : List (Str × List Seen) :=
  [(b!"req", [⟨some b!"host", some b!"a.b"⟩, ⟨none, some b!"aa"⟩]), (b!"resp", [⟨none, none⟩]), (b!"req", [⟨none, some b!"ab"⟩])]

example : ∀ c ∈ calls111, Bytes111 c.2 := by
  intro c hc
  simp only [calls111, List.mem_cons, List.not_mem_nil, or_false] at hc
  rcases hc with rfl | rfl | rfl <;> (unfold Bytes111; decide)

example : (under111 calls111 b!"req").flatten.count 97 = 4 ∧ (under111 calls111 b!"req").length = 4 := by decide

/-! ### Listing -/

theorem chrPairs_err : ∀ (l : List Nat) (i : Nat), i ≤ 256 → i + l.length = 257 → chrPairs l i = .error .value
  | [], i, h1, h2 => by simp at h2; omega
  | x :: l, i, h1, h2 => by
    simp only [List.length_cons] at h2
    by_cases hi : i < 256
    · have := chrPairs_err l (i + 1) (by omega) (by omega)
      simp only [chrPairs, chr, if_pos hi, bind, Except.bind, this]
    · simp only [chrPairs, chr, if_neg hi, bind, Except.bind]

/-- C112, the claim about SortedByFreq is false: there is no state in which it returns, since it computes `chr(256)`. -/
theorem C112_false (w : Freaks) (ss : List Str) (h : Counts111 w ss) : sortedByFreq w = .error .value := by
  have := chrPairs_err w.chars 0 (by omega) (by have := h.1; omega)
  simp only [sortedByFreq, this, bind, Except.bind]

example : Counts111 Freaks.init [] := counts111_init

/-! #### The decimal digits -/

/-- The number that decimal digits stand for. -/
def value112 (s : Str) : Nat := s.foldl (fun a d => 10 * a + (d - 48)) 0

theorem decLoop_spec : ∀ (f n : Nat), n < f → value112 (decLoop f n) = n ∧ ∀ d ∈ decLoop f n, 48 ≤ d ∧ d < 58
  | 0, n, h => by omega
  | f + 1, n, h => by
    by_cases hn : n < 10
    · simp only [decLoop, if_pos hn, value112, List.foldl_cons, List.foldl_nil, List.mem_singleton, forall_eq]
      omega
    · obtain ⟨h1, h2⟩ := decLoop_spec f (n / 10) (by omega)
      simp only [decLoop, if_neg hn, value112, List.foldl_append, List.foldl_cons, List.foldl_nil, List.mem_append,
        List.mem_singleton] at h1 ⊢
      refine ⟨by rw [h1]; omega, fun d hd => ?_⟩
      rcases hd with hd | rfl
      · exact h2 d hd
      · omega

theorem dec_digits (n : Nat) : ∀ d ∈ dec n, 48 ≤ d ∧ d < 58 := (decLoop_spec _ n (by omega)).2
theorem dec_value (n : Nat) : value112 (dec n) = n := (decLoop_spec _ n (by omega)).1

/-- A number in front of a bracket can be read, with spaces before it. -/
theorem dec_end {a b : Nat} {j k : Nat} {x y : Str}
    (h : List.replicate j 32 ++ (dec a ++ 41 :: x) = List.replicate k 32 ++ (dec b ++ 41 :: y)) : a = b ∧ x = y := by
  have strip : ∀ (j n : Nat) (x : Str),
      (List.replicate j 32 ++ (dec n ++ 41 :: x)).dropWhile (fun c => decide (c = 32)) = dec n ++ 41 :: x := by
    intro j n x
    rw [List.dropWhile_append_of_pos (by intro c hc; simpa using (List.eq_of_mem_replicate hc))]
    cases hd : dec n with
    | nil => rfl
    | cons d ds =>
      have := dec_digits n d (by simp [hd])
      rw [List.cons_append, List.dropWhile_cons_of_neg (by simp; omega)]
  have e := congrArg (List.dropWhile (fun c => decide (c = 32))) h
  rw [strip, strip] at e
  have cut : ∀ (n : Nat) (x : Str), (dec n ++ 41 :: x).takeWhile (fun c => decide (c ≠ 41)) = dec n := by
    intro n x
    rw [List.takeWhile_append_of_pos (by intro c hc; have := dec_digits n c hc; simp; omega)]
    simp
  have e2 := congrArg (List.takeWhile (fun c => decide (c ≠ 41))) e
  rw [cut, cut] at e2
  rw [e2] at e
  refine ⟨by rw [← dec_value a, ← dec_value b, e2], ?_⟩
  have := List.append_cancel_left e
  simpa using this

/-! #### The lines -/

/-- The text of the pairs is what the lines hold behind two spaces. -/
theorem layout_flat (width : Nat) : ∀ (ps : List Str) (line : Str), (∀ p ∈ ps, p ≠ []) →
    (layout width ps (b!"  " ++ line)).flatMap (·.drop 2) = line ++ ps.flatten ∧
    ∀ l ∈ layout width ps (b!"  " ++ line), l.take 2 = b!"  "
  | [], line, _ => by
    by_cases h : b!"  " ++ line = b!"  "
    · have : line = [] := by simpa using h
      subst this
      simp [layout]
    · simp only [layout, ne_eq, h, not_false_eq_true, if_true]
      simp
  | p :: ps, line, hp => by
    by_cases hw : p.length + (b!"  " ++ line).length > width
    · obtain ⟨h1, h2⟩ := layout_flat width ps p (fun q hq => hp q (by simp [hq]))
      simp only [layout, if_pos hw, List.flatMap_cons, h1, List.mem_cons, List.flatten_cons]
      refine ⟨by simp, fun l hl => ?_⟩
      rcases hl with rfl | hl
      · simp
      · exact h2 l hl
    · obtain ⟨h1, h2⟩ := layout_flat width ps (line ++ p) (fun q hq => hp q (by simp [hq]))
      rw [← List.append_assoc] at h1 h2
      simp only [layout, if_neg hw, List.flatten_cons]
      exact ⟨by rw [h1, List.append_assoc], h2⟩

theorem layout_width (width : Nat) : ∀ (ps : List Str) (line : Str) (all : List Str), (∀ p ∈ ps, p ∈ all) →
    (line.length ≤ width ∨ ∃ p ∈ all, line = b!"  " ++ p) →
    ∀ l ∈ layout width ps line, l.length ≤ width ∨ ∃ p ∈ all, l = b!"  " ++ p
  | [], line, all, _, hl, l, hm => by
    by_cases h : line ≠ b!"  "
    · simp only [layout, if_pos h, List.mem_singleton] at hm
      rw [hm]; exact hl
    · simp only [layout, if_neg h, List.not_mem_nil] at hm
  | p :: ps, line, all, ha, hl, l, hm => by
    by_cases hw : p.length + line.length > width
    · simp only [layout, if_pos hw, List.mem_cons] at hm
      rcases hm with rfl | hm
      · exact hl
      · exact layout_width width ps _ all (fun q hq => ha q (by simp [hq])) (Or.inr ⟨p, ha p (by simp), rfl⟩) l hm
    · simp only [layout, if_neg hw] at hm
      exact layout_width width ps _ all (fun q hq => ha q (by simp [hq]))
        (Or.inl (by rw [List.length_append]; omega)) l hm

theorem layout_chars (width : Nat) : ∀ (ps : List Str) (line : Str), (∀ p ∈ ps, 10 ∉ p) → 10 ∉ line →
    ∀ l ∈ layout width ps line, 10 ∉ l
  | [], line, _, hl, l, hm => by
    by_cases h : line ≠ b!"  "
    · simp only [layout, if_pos h, List.mem_singleton] at hm
      rw [hm]; exact hl
    · simp only [layout, if_neg h, List.not_mem_nil] at hm
  | p :: ps, line, ha, hl, l, hm => by
    have hp := ha p (by simp)
    by_cases hw : p.length + line.length > width
    · simp only [layout, if_pos hw, List.mem_cons] at hm
      rcases hm with rfl | hm
      · exact hl
      · exact layout_chars width ps _ (fun q hq => ha q (by simp [hq])) (by simpa using hp) l hm
    · simp only [layout, if_neg hw] at hm
      exact layout_chars width ps _ (fun q hq => ha q (by simp [hq])) (by simp [hl, hp]) l hm

/-! #### The pairs -/

theorem reprChr_chars : ∀ i < 256, 10 ∉ reprChr i := by decide +kernel

theorem dec_chars (n : Nat) : 10 ∉ dec n := fun h => absurd (dec_digits n _ h) (by omega)

theorem rjust_chars (w : Nat) (s : Str) (h : 10 ∉ s) : 10 ∉ rjust w s := by
  simp only [rjust, List.mem_append, List.mem_replicate, not_or]
  exact ⟨by omega, h⟩

/-- What stands before the count in the text of delta. -/
def front1 (i : Nat) : Str := b!"(" ++ (if i < 256 then reprChr i else dec i) ++ b!", "

/-- What stands before the count in the text of delta2. -/
def front2 (i : Nat) : Str := b!"(" ++ sym2 i ++ b!", "

theorem pairs1_eq : ∀ (l : List Nat) (i : Nat),
    pairs1 l i = (l.zipIdx i).map fun x => front1 x.2 ++ (dec x.1 ++ b!"),")
  | [], _ => rfl
  | x :: l, i => by
    rw [pairs1, List.zipIdx_cons, List.map_cons, ← pairs1_eq l (i + 1), front1]
    congr 1
    by_cases hi : i < 256
    · simp only [if_pos hi, List.append_assoc]
    · simp only [if_neg hi, List.append_assoc]

theorem pairs2_eq (f : Nat) : ∀ (l : List Nat) (i : Nat),
    pairs2 f l i = (l.zipIdx i).map fun x => front2 x.2 ++ (rjust f (dec x.1) ++ b!"),")
  | [], _ => rfl
  | x :: l, i => by
    rw [pairs2, List.zipIdx_cons, List.map_cons, ← pairs2_eq f l (i + 1), front2]
    simp only [List.append_assoc]

theorem front1_chars (i : Nat) : 10 ∉ front1 i := by
  have : 10 ∉ (if i < 256 then reprChr i else dec i) := by
    by_cases h : i < 256
    · rw [if_pos h]; exact reprChr_chars i h
    · rw [if_neg h]; exact dec_chars i
  simp only [front1, List.mem_append, not_or]
  exact ⟨⟨by decide, this⟩, by decide⟩

theorem front2_chars (i : Nat) : 10 ∉ front2 i := by
  have : 10 ∉ sym2 i := by
    unfold sym2
    by_cases h : i < 128 ∧ printable i = true
    · rw [if_pos h]; exact rjust_chars _ _ (reprChr_chars i (by omega))
    · rw [if_neg h]; exact rjust_chars _ _ (dec_chars i)
  simp only [front2, List.mem_append, not_or]
  exact ⟨⟨by decide, this⟩, by decide⟩

/-- The counts can be read from the pairs, whatever the spaces before the numbers. -/
theorem pairs_inj (front : Nat → Str) (f g : Nat → Nat) : ∀ (l m : List Nat) (i : Nat), l.length = m.length →
    ((l.zipIdx i).map fun x => front x.2 ++ (List.replicate (f x.1) 32 ++ dec x.1 ++ b!"),")).flatten =
      ((m.zipIdx i).map fun x => front x.2 ++ (List.replicate (g x.1) 32 ++ dec x.1 ++ b!"),")).flatten → l = m
  | [], [], _, _, _ => rfl
  | [], _ :: _, _, h, _ => by simp at h
  | _ :: _, [], _, h, _ => by simp at h
  | x :: l, y :: m, i, h, e => by
    simp only [List.zipIdx_cons, List.map_cons, List.flatten_cons, List.append_assoc] at e
    have e1 := List.append_cancel_left e
    obtain ⟨h1, h2⟩ := dec_end (a := x) (b := y) (j := f x) (k := g y) e1
    have h3 := pairs_inj front f g l m (i + 1) (by simpa using h)
      (by simpa [List.append_assoc] using h2)
    rw [h1, h3]

/-- A text in lines determines the text of the pairs. -/
theorem text_inj {width : Nat} {ps qs : List Str} (hp : ∀ p ∈ ps, p ≠ [] ∧ 10 ∉ p) (hq : ∀ p ∈ qs, p ≠ [] ∧ 10 ∉ p)
    (h : joinWith b!"\n" (b!"[" :: (layout width ps b!"  " ++ [b!"]"])) =
      joinWith b!"\n" (b!"[" :: (layout width qs b!"  " ++ [b!"]"]))) : ps.flatten = qs.flatten := by
  have lines : ∀ ps : List Str, (∀ p ∈ ps, p ≠ [] ∧ 10 ∉ p) →
      splitOn 10 (joinWith b!"\n" (b!"[" :: (layout width ps b!"  " ++ [b!"]"]))) =
        b!"[" :: (layout width ps b!"  " ++ [b!"]"]) := by
    intro ps hp
    refine splitOn_joinWith (by simp) (fun l hl => ?_)
    simp only [List.mem_cons, List.mem_append, List.not_mem_nil, or_false] at hl
    rcases hl with rfl | hl | rfl
    · decide
    · exact layout_chars width ps _ (fun p hm => (hp p hm).2) (by decide) l hl
    · decide
  have e := congrArg (splitOn 10) h
  rw [lines ps hp, lines qs hq] at e
  have e1 : layout width ps b!"  " = layout width qs b!"  " :=
    List.append_cancel_right (List.cons.inj e).2
  have f1 := (layout_flat width ps [] (fun p hm => (hp p hm).1)).1
  have f2 := (layout_flat width qs [] (fun p hm => (hq p hm).1)).1
  simp only [List.append_nil, List.nil_append] at f1 f2
  rw [← f1, ← f2, e1]

theorem front_ne (a b : Str) : b!"(" ++ a ++ b ≠ [] := by simp

theorem pairs1_ok (l : List Nat) : ∀ p ∈ pairs1 l 0, p ≠ [] ∧ 10 ∉ p := by
  intro p hp
  rw [pairs1_eq, List.mem_map] at hp
  obtain ⟨x, _, rfl⟩ := hp
  refine ⟨by simp [front1], ?_⟩
  simp only [List.mem_append, not_or]
  exact ⟨front1_chars _, dec_chars _, by decide⟩

theorem pairs2_ok (f : Nat) (l : List Nat) : ∀ p ∈ pairs2 f l 0, p ≠ [] ∧ 10 ∉ p := by
  intro p hp
  rw [pairs2_eq, List.mem_map] at hp
  obtain ⟨x, _, rfl⟩ := hp
  refine ⟨by simp [front2], ?_⟩
  simp only [List.mem_append, not_or]
  exact ⟨front2_chars _, rjust_chars _ _ (dec_chars _), by decide⟩

/-- C112, the part that holds: the printed table determines all the counts, in both versions; and the lines are at most 80
(60) characters long, except where a single pair is longer. -/
theorem C112_partial (v w : Freaks) (hv : v.chars.length = 257) (hw : w.chars.length = 257) :
    (repr1 v = repr1 w → v.chars = w.chars) ∧ (repr2 v = repr2 w → v.chars = w.chars) ∧
    (∀ l ∈ splitOn 10 (repr1 v), l.length ≤ 80 ∨ ∃ p ∈ pairs1 v.chars 0, l = b!"  " ++ p) ∧
    (∀ l ∈ splitOn 10 (repr2 v), l.length ≤ 60 ∨
      ∃ p ∈ pairs2 (dec (maxFreq v.chars 0)).length v.chars 0, l = b!"  " ++ p) := by
  have wide : ∀ (width : Nat) (ps : List Str), 2 ≤ width → (∀ p ∈ ps, p ≠ [] ∧ 10 ∉ p) →
      ∀ l ∈ splitOn 10 (joinWith b!"\n" (b!"[" :: (layout width ps b!"  " ++ [b!"]"]))),
        l.length ≤ width ∨ ∃ p ∈ ps, l = b!"  " ++ p := by
    intro width ps h2 hp l hl
    rw [splitOn_joinWith (by simp)] at hl
    · simp only [List.mem_cons, List.mem_append, List.not_mem_nil, or_false] at hl
      rcases hl with rfl | hl | rfl
      · exact Or.inl (by simp; omega)
      · exact layout_width width ps _ ps (fun _ h => h) (Or.inl (by simpa using h2)) l hl
      · exact Or.inl (by simp; omega)
    · intro l hl
      simp only [List.mem_cons, List.mem_append, List.not_mem_nil, or_false] at hl
      rcases hl with rfl | hl | rfl
      · decide
      · exact layout_chars width ps _ (fun p hm => (hp p hm).2) (by decide) l hl
      · decide
  refine ⟨fun h => ?_, fun h => ?_, wide 80 _ (by omega) (pairs1_ok _), wide 60 _ (by omega) (pairs2_ok _ _)⟩
  · have := text_inj (pairs1_ok _) (pairs1_ok _) h
    rw [pairs1_eq, pairs1_eq] at this
    exact pairs_inj front1 (fun _ => 0) (fun _ => 0) _ _ 0 (by omega) (by simpa using this)
  · have := text_inj (pairs2_ok _ _) (pairs2_ok _ _) h
    rw [pairs2_eq, pairs2_eq] at this
    simp only [rjust] at this
    exact pairs_inj front2 (fun n => (dec (maxFreq v.chars 0)).length - (dec n).length)
      (fun n => (dec (maxFreq w.chars 0)).length - (dec n).length) _ _ 0 (by omega) this

example : (Freaks.init).chars.length = 257 := List.length_replicate ..

/-- The text begins as expected. -/
example : (repr1 ⟨[3, 12], []⟩) = b!"[\n  ('\\x00', 3),('\\x01', 12),\n]" := by decide +kernel
example : (repr2 ⟨[3, 12], []⟩) = b!"[\n  (   0,  3),(   1, 12),\n]" := by decide +kernel

end Verif.Props
