import Verif.HeaderDiff.Deflate
import Verif.HeaderDiff.Params
import Verif.Zlib.Stored
import Verif.Text.Gzip
import Verif.Props.Text
import Verif.Props.HeaderDiff
/-
Property theorems for what the codecs do with zlib (C101-C103).
-/
namespace Verif.Props
open Verif Verif.HeaderDiff Verif.Zlib

/-! ### C101: the parameters of headerdiff -/

/-- A parameter is `name` or `name=value`, where the name has no `=`. -/
def Named (param name : Str) (value : Option Str) : Prop :=
  61 ∉ name ∧ match value with
    | none => param = name
    | some v => param = name ++ 61 :: v

/-- No parameter has this name. -/
def Absent (params : List Str) (name : Str) : Prop := ∀ q ∈ params, ∀ v, ¬ Named q name v

/-- The last parameter with this name has this value. -/
def Last (params : List Str) (name : Str) (value : Option Str) : Prop :=
  ∃ a q b, params = a ++ q :: b ∧ Named q name value ∧ Absent b name

theorem splitOnce_none {c : Nat} {s : Str} (h : c ∉ s) : splitOnce c s = none := by
  induction s with
  | nil => rfl
  | cons x s ih =>
    simp only [List.mem_cons, not_or] at h
    simp [splitOnce, Ne.symm h.1, ih h.2]

theorem splitOnce_append {c : Nat} {n : Str} (v : Str) (h : c ∉ n) : splitOnce c (n ++ c :: v) = some (n, v) := by
  induction n with
  | nil => simp [splitOnce]
  | cons x s ih =>
    simp only [List.mem_cons, not_or] at h
    simp [splitOnce, Ne.symm h.1, ih h.2]

theorem splitOnce_cases (c : Nat) (s : Str) : c ∉ s ∨ ∃ n v, c ∉ n ∧ s = n ++ c :: v := by
  by_cases h : c ∈ s
  · right
    induction s with
    | nil => simp at h
    | cons x s ih =>
      by_cases hx : x = c
      · exact ⟨[], s, by simp, by simp [hx]⟩
      · obtain ⟨n, v, hn, rfl⟩ := ih (by simpa [Ne.symm hx] using h)
        exact ⟨x :: n, v, by simp [Ne.symm hx, hn], rfl⟩
  · exact .inl h

theorem splitParam_named (q : Str) : Named q (splitParam q).1 (splitParam q).2 := by
  rcases splitOnce_cases 61 q with h | ⟨n, v, hn, rfl⟩
  · simp [splitParam, h, Named]
  · simp [splitParam, Named, splitOnce_append v hn, hn]

theorem named_unique {q name : Str} {v : Option Str} (h : Named q name v) : splitParam q = (name, v) := by
  obtain ⟨hn, h⟩ := h
  cases v with
  | none => simp only at h; subst h; simp [splitParam, hn]
  | some v => simp only at h; subst h; simp [splitParam, splitOnce_append v hn]

theorem named_iff {q name : Str} {v : Option Str} : Named q name v ↔ splitParam q = (name, v) :=
  ⟨named_unique, fun h => by have := splitParam_named q; rwa [h] at this⟩

theorem last_snoc {xs : List Str} {x name : Str} {v : Option Str} :
    Last (xs ++ [x]) name v ↔ Named x name v ∨ ((∀ w, ¬ Named x name w) ∧ Last xs name v) := by
  constructor
  · rintro ⟨a, q, b, e, hq, hb⟩
    rcases List.eq_nil_or_concat b with rfl | ⟨b', y, rfl⟩
    · rw [List.append_inj_right' (t₁ := [x]) (t₂ := [q]) (by simpa using e) rfl |> List.cons.inj |>.1]
      exact .inl hq
    · have e' : xs ++ [x] = (a ++ q :: b') ++ [y] := by simp [e]
      obtain ⟨e1, e2⟩ := List.append_inj' e' rfl
      simp only [List.cons.injEq, and_true] at e2
      subst e2
      exact .inr ⟨fun w => hb x (by simp) w, a, q, b', e1, hq, fun r hr => hb r (by simp [hr])⟩
  · rintro (h | ⟨h, a, q, b, rfl, hq, hb⟩)
    · exact ⟨xs, x, [], rfl, h, by simp [Absent]⟩
    · refine ⟨a, q, b ++ [x], by simp, hq, ?_⟩
      intro r hr
      simp only [List.mem_append, List.mem_singleton] at hr
      rcases hr with hr | rfl
      · exact hb r hr
      · exact h

theorem absent_snoc {xs : List Str} {x name : Str} : Absent (xs ++ [x]) name ↔ (∀ w, ¬ Named x name w) ∧ Absent xs name := by
  simp only [Absent, List.mem_append, List.mem_singleton]
  constructor
  · exact fun h => ⟨h x (.inr rfl), fun q hq => h q (.inl hq)⟩
  · rintro ⟨h1, h2⟩ q (hq | rfl)
    · exact h2 q hq
    · exact h1

theorem readParams_snoc (int : Str → Option Int) (xs : List Str) (x : Str) : ∀ p,
    readParams int p (xs ++ [x]) = (readParams int p xs).bind fun p => readParam int p x := by
  induction xs with
  | nil =>
    intro p
    simp only [List.nil_append, readParams, bind, Except.bind]
    cases readParam int p x <;> rfl
  | cons y ys ih =>
    intro p
    simp only [List.cons_append, readParams, bind, Except.bind]
    cases readParam int p y with
    | error e => rfl
    | ok q => exact ih q

/-- A value of a parameter that has to be a number. -/
def Number (int : Str → Option Int) (value : Option Str) (n : Int) : Prop := ∃ s, value = some s ∧ int s = some n

/-- `w` is `s` without such characters at its ends. -/
def Trimmed (p : Nat → Bool) (s w : Str) : Prop :=
  ∃ a b, s = a ++ w ++ b ∧ (∀ c ∈ a, p c = true) ∧ (∀ c ∈ b, p c = true) ∧
    (∀ c, w.head? = some c → p c = false) ∧ ∀ c, w.getLast? = some c → p c = false

/-- What the value of a delta type says: a number is a limit, nothing is no limit, anything else a set of characters, which
may be quoted. -/
def DeltaSays (int : Str → Option Int) (t : DeltaType) : Option Str → Prop
  | none => t = .full
  | some s => ∃ w, Trimmed (fun c => decide (c ∈ [9, 10, 11, 12, 13, 32])) s w ∧
    ((∃ n, int w = some n ∧ t = .max n) ∨ (int w = none ∧ w = [] ∧ t = .full) ∨
      (int w = none ∧ w ≠ [] ∧ ∃ u, Trimmed (fun c => decide (c = 34 ∨ c = 39)) w u ∧ t = .bound u))

theorem parseDelta_says (int : Str → Option Int) (v : Option Str) : DeltaSays int (parseDelta int v) v := by
  cases v with
  | none => rfl
  | some s =>
    have hws : isWs = fun c => decide (c ∈ [9, 10, 11, 12, 13, 32]) := by
      funext c
      rw [Bool.eq_iff_iff]
      simp [isWs]
      omega
    have hqu : (fun c : Nat => c == 34 || c == 39) = fun c => decide (c = 34 ∨ c = 39) := by
      funext c
      rw [Bool.eq_iff_iff]
      simp
    have h1 := stripBy_spec isWs s
    refine ⟨stripWs s, ?_, ?_⟩
    · rw [hws] at h1
      unfold Trimmed stripWs
      rw [hws]
      exact h1
    · cases hi : int (stripWs s) with
      | some n => exact .inl ⟨n, rfl, by simp only [parseDelta, hi]⟩
      | none =>
        by_cases hw : stripWs s = []
        · refine .inr (.inl ⟨rfl, hw, ?_⟩)
          simp only [parseDelta, hi]
          rw [if_neg (by simp [hw])]
        · refine .inr (.inr ⟨rfl, hw, stripQuotes (stripWs s), ?_, ?_⟩)
          · have h2 := stripBy_spec (fun c => decide (c = 34 ∨ c = 39)) (stripWs s)
            unfold Trimmed stripQuotes
            rw [hqu]
            exact h2
          · simp only [parseDelta, hi]
            rw [if_pos hw]

/-- What the parameters say, by the last of each name (README.md, "Usage"). -/
structure Says (int : Str → Option Int) (params : List Str) (p : Params) : Prop where
  buffer : (Absent params b!"buffer" → p.buffer = 32768) ∧ ∀ v, Last params b!"buffer" v → Number int v p.buffer
  deflate : (Absent params b!"deflate" → p.deflate = none) ∧
    ∀ v, Last params b!"deflate" v → ∃ n, p.deflate = some n ∧ Number int v n
  delta : (Absent params b!"delta" → p.delta = true) ∧ ∀ v, Last params b!"delta" v →
    (p.delta = false ↔ ∃ s, v = some s ∧ lower s = b!"false")
  deltaType : (Absent params b!"delta_type" → p.deltaType = .full) ∧ ∀ v, Last params b!"delta_type" v →
    DeltaSays int p.deltaType v
  huffman : (Absent params b!"huffman" → p.huffman = false) ∧ ∀ v, Last params b!"huffman" v →
    (p.huffman = false ↔ ∃ s, v = some s ∧ lower s = b!"false")

theorem parseBool_false (v : Option Str) : parseBool v = false ↔ ∃ s, v = some s ∧ lower s = b!"false" := by
  cases v with
  | none => simp [parseBool]
  | some s => by_cases h : lower s = b!"false" <;> simp [parseBool, h]

theorem intOf_number {int : Str → Option Int} {v : Option Str} {n : Int} : intOf int v = .ok n ↔ Number int v n := by
  unfold Number
  cases v with
  | none => simp [intOf]
  | some s => cases h : int s <;> simp [intOf, h]

theorem says_other {xs : List Str} {x : Str} {name : Str} {P : Prop} {R : Option Str → Prop} (hx : ∀ w, ¬ Named x name w)
    (h : (Absent xs name → P) ∧ ∀ v, Last xs name v → R v) :
    (Absent (xs ++ [x]) name → P) ∧ ∀ v, Last (xs ++ [x]) name v → R v := by
  refine ⟨fun ha => h.1 (absent_snoc.1 ha).2, fun v hl => ?_⟩
  rcases last_snoc.1 hl with hl | ⟨_, hl⟩
  · exact absurd hl (hx v)
  · exact h.2 v hl

theorem says_this {xs : List Str} {x : Str} {name : Str} {P : Prop} {R : Option Str → Prop} {w : Option Str}
    (hx : Named x name w) (h : R w) :
    (Absent (xs ++ [x]) name → P) ∧ ∀ v, Last (xs ++ [x]) name v → R v := by
  refine ⟨fun ha => absurd hx ((absent_snoc.1 ha).1 w), fun v hl => ?_⟩
  rcases last_snoc.1 hl with hl | ⟨hl, _⟩
  · rw [named_iff] at hl hx
    rw [hx] at hl
    cases hl
    exact h
  · exact absurd hx (hl w)

/-- C101.  A Processor reads its parameters as they say, the last of each name, and if all that have to be numbers are. -/
theorem C101_says (int : Str → Option Int) (params : List Str) (p : Params) (h : readParams int {} params = .ok p) :
    Says int params p ∧ ∀ q ∈ params, ∀ v, (Named q b!"buffer" v ∨ Named q b!"deflate" v) → ∃ n, Number int v n := by
  induction params using List.reverseRecOn generalizing p with
  | nil =>
    cases h
    have : ∀ name v, ¬ Last [] name v := by rintro name v ⟨a, q, b, e, _⟩; simp at e
    exact ⟨⟨⟨fun _ => rfl, fun v h => absurd h (this _ v)⟩, ⟨fun _ => rfl, fun v h => absurd h (this _ v)⟩,
      ⟨fun _ => rfl, fun v h => absurd h (this _ v)⟩, ⟨fun _ => rfl, fun v h => absurd h (this _ v)⟩,
      ⟨fun _ => rfl, fun v h => absurd h (this _ v)⟩⟩, by simp⟩
  | append_singleton xs x ih =>
    rw [readParams_snoc] at h
    cases hp : readParams int {} xs with
    | error e => rw [hp] at h; cases h
    | ok p0 =>
      rw [hp] at h
      obtain ⟨hs, hn⟩ := ih p0 hp
      simp only [Except.bind] at h
      obtain ⟨name, v, hx⟩ : ∃ name v, splitParam x = (name, v) := ⟨_, _, rfl⟩
      have hnx : Named x name v := named_iff.2 hx
      have hne : ∀ {m : Str}, name ≠ m → ∀ w, ¬ Named x m w := by
        intro m hm w hw
        rw [named_iff, hx] at hw
        exact hm (Prod.mk.inj hw).1
      have hnum : ((name = b!"buffer" ∨ name = b!"deflate") → ∃ n, Number int v n) →
          ∀ q ∈ xs ++ [x], ∀ v, (Named q b!"buffer" v ∨ Named q b!"deflate" v) → ∃ n, Number int v n := by
        intro hn' q hq w hw
        simp only [List.mem_append, List.mem_singleton] at hq
        rcases hq with hq | rfl
        · exact hn q hq w hw
        · rw [named_iff, named_iff, hx] at hw
          rcases hw with hw | hw <;> cases hw <;> exact hn' (by simp)
      simp only [readParam, hx] at h
      by_cases h1 : name = b!"buffer"
      · subst h1
        cases hi : intOf int v with
        | error e => simp [hi, bind, Except.bind] at h
        | ok n =>
          simp [hi, bind, Except.bind] at h
          subst h
          rw [intOf_number] at hi
          exact ⟨⟨says_this hnx hi, says_other (hne (by decide)) hs.deflate, says_other (hne (by decide)) hs.delta,
            says_other (hne (by decide)) hs.deltaType, says_other (hne (by decide)) hs.huffman⟩, hnum fun _ => ⟨n, hi⟩⟩
      by_cases h2 : name = b!"deflate"
      · subst h2
        cases hi : intOf int v with
        | error e => simp [hi, bind, Except.bind] at h
        | ok n =>
          simp [hi, bind, Except.bind] at h
          subst h
          rw [intOf_number] at hi
          exact ⟨⟨says_other (hne (by decide)) hs.buffer, says_this hnx ⟨n, rfl, hi⟩, says_other (hne (by decide)) hs.delta,
            says_other (hne (by decide)) hs.deltaType, says_other (hne (by decide)) hs.huffman⟩, hnum fun _ => ⟨n, hi⟩⟩
      rw [if_neg h1, if_neg h2] at h
      by_cases h3 : name = b!"delta"
      · subst h3
        simp at h
        subst h
        exact ⟨⟨says_other (hne (by decide)) hs.buffer, says_other (hne (by decide)) hs.deflate, says_this hnx (parseBool_false v),
            says_other (hne (by decide)) hs.deltaType, says_other (hne (by decide)) hs.huffman⟩, hnum fun hc => by simp at hc⟩
      rw [if_neg h3] at h
      by_cases h4 : name = b!"delta_type"
      · subst h4
        simp at h
        subst h
        exact ⟨⟨says_other (hne (by decide)) hs.buffer, says_other (hne (by decide)) hs.deflate,
            says_other (hne (by decide)) hs.delta, says_this hnx (parseDelta_says int v), says_other (hne (by decide)) hs.huffman⟩,
            hnum fun hc => by simp at hc⟩
      rw [if_neg h4] at h
      have hrest := hnum fun hc => by rcases hc with hc | hc <;> contradiction
      by_cases h5 : name = b!"huffman"
      · subst h5
        simp at h
        subst h
        exact ⟨⟨says_other (hne (by decide)) hs.buffer, says_other (hne (by decide)) hs.deflate,
            says_other (hne (by decide)) hs.delta, says_other (hne (by decide)) hs.deltaType, says_this hnx (parseBool_false v)⟩, hrest⟩
      rw [if_neg h5] at h
      cases h
      exact ⟨⟨says_other (hne h1) hs.buffer, says_other (hne h2) hs.deflate, says_other (hne h3) hs.delta,
        says_other (hne h4) hs.deltaType, says_other (hne h5) hs.huffman⟩, hrest⟩

/-- C101: if the parameters that have to be numbers are, then no exception is raised; so exactly then. -/
theorem C101_total (int : Str → Option Int) (params : List Str)
    (hn : ∀ q ∈ params, ∀ v, (Named q b!"buffer" v ∨ Named q b!"deflate" v) → ∃ n, Number int v n) :
    ∃ p, readParams int {} params = .ok p := by
  generalize ({} : Params) = p
  induction params generalizing p with
  | nil => exact ⟨p, rfl⟩
  | cons x xs ih =>
    have hx : ∃ p', readParam int p x = .ok p' := by
      have hq := hn x (by simp) (splitParam x).2
      have hnx := splitParam_named x
      simp only [readParam]
      by_cases h1 : (splitParam x).1 = b!"buffer"
      · obtain ⟨n, h⟩ := hq (.inl (h1 ▸ hnx))
        exact ⟨_, by rw [if_pos h1, intOf_number.2 h]; rfl⟩
      by_cases h2 : (splitParam x).1 = b!"deflate"
      · obtain ⟨n, h⟩ := hq (.inr (h2 ▸ hnx))
        exact ⟨_, by rw [if_neg h1, if_pos h2, intOf_number.2 h]; rfl⟩
      rw [if_neg h1, if_neg h2]
      split_ifs <;> exact ⟨_, rfl⟩
    obtain ⟨p', hp'⟩ := hx
    obtain ⟨p'', h⟩ := ih (fun q hq => hn q (by simp [hq])) p'
    exact ⟨p'', by simp only [readParams, hp', bind, Except.bind, h]⟩

/-- How a set of characters is written in a parameter: commas as `\coma`. -/
def escapeComa (s : Str) : Str := s.flatMap fun c => if c = 44 then b!"\\coma" else [c]

theorem replaceComa_cons {c : Nat} (hc : c ≠ 92) (s : Str) : replaceComa (c :: s) = c :: replaceComa s := by
  rw [replaceComa.eq_2]
  rintro x rfl
  exact absurd rfl hc

theorem dropWhile_nil {p : Nat → Bool} {s : Str} : s.dropWhile p = [] ↔ ∀ c ∈ s, p c = true := by
  induction s with
  | nil => simp
  | cons c s ih => by_cases hc : p c = true <;> simp [hc, ih]

theorem stripBy_ends {p : Nat → Bool} {s : Str} (h1 : ∀ c, s.head? = some c → p c = false) (h2 : ∀ c, s.getLast? = some c → p c = false) :
    stripBy p s = s := by
  have e1 : s.dropWhile p = s := by
    cases s with
    | nil => rfl
    | cons c s => simp [h1 c rfl]
  unfold stripBy
  rw [e1]
  have e2 : s.reverse.dropWhile p = s.reverse := by
    cases h : s.reverse with
    | nil => rfl
    | cons c t =>
      have : s.getLast? = some c := by rw [← List.head?_reverse, h]; rfl
      simp [h2 c this]
  rw [e2, List.reverse_reverse]

theorem stripBy_around {p : Nat → Bool} {a b : Nat} {s : Str} (ha : p a = true) (hb : p b = true) :
    stripBy p (a :: s ++ [b]) = stripBy p s := by
  unfold stripBy
  rw [List.cons_append, List.dropWhile_cons_of_pos ha]
  by_cases h : s.all p
  · have h1 : (s ++ [b]).dropWhile p = [] := by
      rw [dropWhile_nil]
      intro c hc
      rcases List.mem_append.1 hc with hc | hc
      · exact List.all_eq_true.1 h c hc
      · rw [List.mem_singleton.1 hc]; exact hb
    have h2 : s.dropWhile p = [] := by simpa [dropWhile_nil] using h
    rw [h1, h2]
  · have h1 : (s ++ [b]).dropWhile p = s.dropWhile p ++ [b] := by
      rw [List.dropWhile_append, if_neg]
      rw [List.isEmpty_iff, dropWhile_nil]
      intro hc
      exact h (List.all_eq_true.2 hc)
    rw [h1, List.reverse_append, List.reverse_singleton, List.singleton_append, List.dropWhile_cons_of_pos hb]

theorem escapeComa_head {s : Str} {c : Nat} (h : (escapeComa s).head? = some c) : c = 92 ∨ s.head? = some c := by
  cases s with
  | nil => simp [escapeComa] at h
  | cons x s =>
    by_cases hx : x = 44
    · left; simpa [escapeComa, hx] using h.symm
    · right; simpa [escapeComa, hx] using h

theorem escapeComa_last {s : Str} {c : Nat} (h : (escapeComa s).getLast? = some c) : c = 97 ∨ s.getLast? = some c := by
  rcases List.eq_nil_or_concat s with rfl | ⟨t, x, rfl⟩
  · simp [escapeComa] at h
  · by_cases hx : x = 44
    · left; simpa [escapeComa, hx] using h.symm
    · right; simpa [escapeComa, hx] using h

theorem replace_escape (s : Str) (h : 92 ∉ s) : replaceComa (escapeComa s) = s := by
  induction s with
  | nil => rfl
  | cons c s ih =>
    simp only [List.mem_cons, not_or] at h
    have := ih h.2
    by_cases hc : c = 44
    · subst hc
      simp only [escapeComa, List.flatMap_cons, if_true, List.cons_append, List.nil_append, replaceComa] at this ⊢
      rw [this]
    · simp only [escapeComa, List.flatMap_cons, if_neg hc, List.cons_append, List.nil_append] at this ⊢
      rw [replaceComa_cons (Ne.symm h.1), this]

/-- C101: the README's delta modes.  No value or an empty one: full prefixes.  A number: a limit.  A quoted set of
characters, with its commas written as `\coma`: prefixes that end in one of these characters. -/
theorem C101_modes (int : Str → Option Int) (hq : ∀ s, 39 ∈ s → int s = none) (h0 : int [] = none) :
    codecDelta (parseDelta int none) = .full ∧ codecDelta (parseDelta int (some [])) = .full ∧
    (∀ s n, stripWs s = s → int s = some n → codecDelta (parseDelta int (some s)) = .max n) ∧
    ∀ s : Str, 92 ∉ s → s.head? ≠ some 39 → s.head? ≠ some 34 → s.getLast? ≠ some 39 → s.getLast? ≠ some 34 →
      44 ∉ escapeComa s ∧ codecDelta (parseDelta int (some (39 :: escapeComa s ++ [39]))) = .bound s := by
  refine ⟨rfl, by simp [parseDelta, stripWs, stripBy, h0, codecDelta], fun s n hs hn => by simp [parseDelta, hs, hn, codecDelta], ?_⟩
  intro s h92 hh1 hh2 hl1 hl2
  have hno : 44 ∉ escapeComa s := by
    intro hc
    simp only [escapeComa, List.mem_flatMap] at hc
    obtain ⟨c, _, hc⟩ := hc
    split_ifs at hc with h
    · revert hc; decide
    · simp at hc; omega
  refine ⟨hno, ?_⟩
  have e1 : stripWs (39 :: escapeComa s ++ [39]) = 39 :: escapeComa s ++ [39] :=
    stripBy_ends (by simp; decide) (by
      intro c hc
      rw [List.getLast?_append_of_ne_nil _ (by simp)] at hc
      simp at hc
      subst hc
      decide)
  have e2 : stripQuotes (39 :: escapeComa s ++ [39]) = escapeComa s := by
    unfold stripQuotes
    rw [stripBy_around (by decide) (by decide), stripBy_ends]
    · intro c hc
      rcases escapeComa_head hc with rfl | h
      · decide
      · have h34 : c ≠ 34 := by rintro rfl; exact hh2 h
        have h39 : c ≠ 39 := by rintro rfl; exact hh1 h
        simp [h34, h39]
    · intro c hc
      rcases escapeComa_last hc with rfl | h
      · decide
      · have h34 : c ≠ 34 := by rintro rfl; exact hl2 h
        have h39 : c ≠ 39 := by rintro rfl; exact hl1 h
        simp [h34, h39]
  simp only [parseDelta, e1, hq _ (by simp : 39 ∈ 39 :: escapeComa s ++ [39]), e2]
  rw [if_pos (by simp)]
  simp [codecDelta, replace_escape s h92]

/-- C101, what the codec of a Processor gets: the buffer, delta and Huffman coding are as the parameters say; a limit stays
what it is, and in a set of characters the commas are put back. -/
theorem C101_codec (int : Str → Option Int) (params : List Str) (p : Params) (h : readParams int {} params = .ok p)
    (coder : HCodec) (isRequest : Bool) (c : Cfg) (hc : processorCfg p coder isRequest = c) :
    c.isRequest = isRequest ∧
    (Absent params b!"buffer" → c.maxSize = 32768) ∧ (∀ v, Last params b!"buffer" v → Number int v c.maxSize) ∧
    (Absent params b!"delta" → c.deltaUsage = true) ∧
    (∀ v, Last params b!"delta" v → (c.deltaUsage = false ↔ ∃ s, v = some s ∧ lower s = b!"false")) ∧
    (Absent params b!"huffman" → c.huffman = none) ∧
    (∀ v, Last params b!"huffman" v →
      if ∃ s, v = some s ∧ lower s = b!"false" then c.huffman = none else c.huffman = some coder) ∧
    (Absent params b!"delta_type" → c.deltaType = .full) ∧
    ∀ v, Last params b!"delta_type" v → ∃ t, DeltaSays int t v ∧ (t = .full → c.deltaType = .full) ∧
      (∀ n, t = .max n → c.deltaType = .max n) ∧
      ∀ s, 92 ∉ s → t = .bound (escapeComa s) → c.deltaType = .bound s := by
  obtain ⟨hs, _⟩ := C101_says int params p h
  subst hc
  refine ⟨rfl, hs.buffer.1, hs.buffer.2, hs.delta.1, hs.delta.2, ?_, ?_, ?_, ?_⟩
  · intro ha
    simp [processorCfg, hs.huffman.1 ha]
  · intro v hv
    have := hs.huffman.2 v hv
    split
    · rename_i hf
      simp [processorCfg, this.2 hf]
    · rename_i hf
      have : p.huffman = true := by
        cases hp : p.huffman with
        | true => rfl
        | false => exact absurd (this.1 hp) hf
      simp [processorCfg, this]
  · intro ha
    simp [processorCfg, hs.deltaType.1 ha, codecDelta]
  · intro v hv
    refine ⟨p.deltaType, hs.deltaType.2 v hv, fun ht => by simp [processorCfg, ht, codecDelta],
      fun n ht => by simp [processorCfg, ht, codecDelta], fun s h92 ht => ?_⟩
    simp only [processorCfg, ht, codecDelta]
    rw [replace_escape s h92]

/-- A reader of decimal numbers, for the examples. -/
def decimal (s : Str) : Option Int :=
  if s ≠ [] ∧ s.all (fun c => 48 ≤ c && c ≤ 57) then some (s.foldl (fun n c => 10 * n + (c - 48 : Nat)) 0) else none

example : readParams decimal {} [b!"buffer=4096", b!"deflate=12", b!"delta=False", b!"huffman", b!"x=1", b!"buffer=77",
      b!"delta_type='/?= \\coma'"] =
    .ok { buffer := 77, deflate := some 12, delta := false, deltaType := .bound b!"/?= \\coma", huffman := true } ∧
    codecDelta (.bound b!"/?= \\coma") = .bound b!"/?= ," ∧
    readParams decimal {} [b!"deflate"] = .error .type ∧ readParams decimal {} [b!"buffer=x"] = .error .value :=
  ⟨rfl, rfl, rfl, rfl⟩

example : (∀ s, 39 ∈ s → decimal s = none) ∧ decimal [] = none := by
  refine ⟨fun s hs => ?_, rfl⟩
  unfold decimal
  rw [if_neg]
  rintro ⟨_, h⟩
  have := List.all_eq_true.1 h 39 hs
  revert this
  decide

/-! ### C102: headerdiff with deflate -/

theorem frame_head {data f : List Nat} (h : frame data = .ok f) :
    f = data.length / 256 :: data.length % 256 :: 0 :: 0 :: 0 :: 0 :: 0 :: 0 :: data := by
  unfold frame packH packB packL at h
  by_cases hl : data.length < 65536
  · simp only [if_pos hl, bind, Except.bind, Nat.zero_lt_succ, if_true] at h
    cases h
    rfl
  · simp only [if_neg hl, bind, Except.bind] at h
    cases h

/-- For the window sizes of zlib streams a codec is made, and its decompressor has read what its compressor wrote. -/
theorem zInit_ok {L : Lib} (ok : Ok L) {w : Int} (h9 : 9 ≤ w) (h15 : w ≤ 15) (dict : Str) :
    ∃ z u, zInit L w dict = .ok (z, u) ∧ ok.Paired z u := by
  obtain ⟨z, hz, hp⟩ := ok.new_ok w h9 h15
  by_cases hd : dict = []
  · exact ⟨z, L.start, by simp [zInit, hz, hd, bind, Except.bind], hp⟩
  · obtain ⟨u, hu, hp'⟩ := ok.unzip_zip z L.start dict hp
    exact ⟨_, u, by simp [zInit, hz, hd, bind, Except.bind, unzipPy, hu], hp'⟩

theorem zInit_bad {L : Lib} (ok : Ok L) {w : Int} (h9 : 9 ≤ w) (h15 : w ≤ 15) {dict : Str} (hd : dict ≠ []) {z : L.Z} {u : L.U}
    (h : zInit L w dict = .ok (z, u)) {bad : Str} (hb : BadBlock bad) : L.unzip u bad = none := by
  obtain ⟨z0, hz, hp⟩ := ok.new_ok w h9 h15
  obtain ⟨u0, hu, _⟩ := ok.unzip_zip z0 L.start dict hp
  simp only [zInit, hz, bind, Except.bind, if_neg hd, unzipPy, hu, Except.ok.injEq, Prod.mk.injEq] at h
  obtain ⟨_, rfl⟩ := h
  exact ok.bad_block z0 L.start _ dict dict bad hp hu hb

theorem zEncode_data {L : Lib} {order : Order} {cfg : Cfg} {z : L.Z} {st : Enc} {hs : List Hdr} {s : L.Z × Enc} {f : List Nat}
    (h : zEncodeHeaders L order cfg z st hs = (s, .ok f)) :
    hs.length < 256 ∧ ∃ x, encodeLoop order cfg (grow st) hs = (s.2, .ok x) ∧ s.1 = (L.zip z (hs.length :: x)).1 ∧
      frame (L.zip z (hs.length :: x)).2 = .ok f := by
  unfold zEncodeHeaders packB at h
  by_cases hl : hs.length < 256
  · simp only [if_pos hl] at h
    cases h1 : encodeLoop order cfg (grow st) hs with
    | mk st1 o1 =>
    rw [h1] at h
    cases o1 with
    | error e => simp at h
    | ok x =>
      simp only [Prod.mk.injEq] at h
      obtain ⟨rfl, h⟩ := h
      exact ⟨hl, x, rfl, rfl, h⟩
  · simp [if_neg hl] at h

/-- C102.  The code violates it: decodeHeaders gives the decompressor the eight bytes of the frame header too.  For every
zlib, every window size of a zlib stream and every dictionary, a new codec raises on the first frame it gets from any
encoder whose compressed payload has fewer than 512 bytes. -/
theorem C102_first_frame_false (L : Lib) (ok : Ok L) (w : Int) (h9 : 9 ≤ w) (h15 : w ≤ 15) (dict : Str) (hd : dict ≠ [])
    (z : L.Z) (u : L.U) (hi : zInit L w dict = .ok (z, u)) (order : Order) (cfg cfg' : Cfg) (z' : L.Z) (st : Enc) (d : Dec)
    (hs : List Hdr) (s : L.Z × Enc) (f : List Nat) (he : zEncodeHeaders L order cfg z' st hs = (s, .ok f))
    (hlen : f.length < 520) : zDecodeHeaders L cfg' u d f = .error .standard := by
  obtain ⟨_, x, _, _, hf⟩ := zEncode_data he
  have hf' := frame_head hf
  obtain ⟨_, _, hl⟩ := frame_spec hf
  generalize (L.zip z' (hs.length :: x)).2 = data at *
  have hbad : BadBlock f := by
    refine ⟨_, _, hf', .inr ⟨?_, _, _, _, _, _, rfl, by omega⟩⟩
    omega
  simp only [zDecodeHeaders, unzipPy, zInit_bad ok h9 h15 hd hi hbad, bind, Except.bind]

/-- C102: so of a session whose first payload is that short, nothing is decoded. -/
theorem C102_session_false (L : Lib) (ok : Ok L) (w : Int) (h9 : 9 ≤ w) (h15 : w ≤ 15) (dict : Str) (hd : dict ≠ [])
    (z : L.Z) (u : L.U) (hi : zInit L w dict = .ok (z, u)) (order : Order) (cfg : Cfg)
    (ms : List (List Hdr)) (s : L.Z × Enc) (f : List Nat) (fs : List (List Nat))
    (he : zEncodeAll L order cfg z (Enc.init cfg) ms = (s, .ok (f :: fs))) (hlen : f.length < 520) :
    zDecodeAll L cfg u (Dec.init cfg) (f :: fs) = .error .standard := by
  cases ms with
  | nil => simp [zEncodeAll] at he
  | cons m ms =>
    unfold zEncodeAll at he
    cases h1 : zEncodeHeaders L order cfg z (Enc.init cfg) m with
    | mk s1 o1 =>
    rw [h1] at he
    cases o1 with
    | error e => simp at he
    | ok x =>
      simp only at he
      have hx : x = f := by
        cases h2 : zEncodeAll L order cfg s1.1 s1.2 ms with
        | mk s2 o2 =>
        rw [h2] at he
        cases o2 with
        | error e => simp at he
        | ok y => simp at he; exact he.2.1
      subst hx
      simp only [zDecodeAll, C102_first_frame_false L ok w h9 h15 dict hd z u hi order cfg cfg z _ (Dec.init cfg) m s1 x h1 hlen,
        bind, Except.bind]

/-- A receiver as the format asks for it: it decompresses what follows the eight bytes of the frame header. -/
def zReceiveAll (L : Lib) (cfg : Cfg) : L.U → Dec → List (List Nat) → Py ((L.U × Dec) × List (List Hdr))
  | u, d, [] => .ok ((u, d), [])
  | u, d, f :: fs => do
    let (u, text) ← unzipPy L u (f.drop 8)
    let (d, hs) ← decodeHeaders cfg d (f.take 8 ++ text)
    let (s, rest) ← zReceiveAll L cfg u d fs
    .ok (s, hs :: rest)

theorem zEncodeAll_spec {L : Lib} (ok : Ok L) {cfg : Cfg} (hco : CoderOk cfg) {order : Order} (ho : OrderOk order) (S : Hdr → Prop)
    (ms : List (List Hdr)) : ∀ {z : L.Z} {u : L.U} {st : Enc} {d : Dec} {s : L.Z × Enc} {fs : List (List Nat)}, ok.Paired z u →
    Sync cfg st d → From S d → (∀ m ∈ ms, ∀ h ∈ m, Bytes h ∧ S h) → zEncodeAll L order cfg z st ms = (s, .ok fs) →
    ∃ u' d' outs, zReceiveAll L cfg u d fs = .ok ((u', d'), outs) ∧ List.Forall₂ (List.Forall₂ (Like S)) ms outs := by
  induction ms with
  | nil =>
    intro z u st d s fs _ _ _ _ he
    simp only [zEncodeAll, Prod.mk.injEq, Except.ok.injEq] at he
    obtain ⟨_, rfl⟩ := he
    exact ⟨u, d, [], rfl, .nil⟩
  | cons m ms ih =>
    intro z u st d s fs hp hsy hf hb he
    unfold zEncodeAll at he
    cases h1 : zEncodeHeaders L order cfg z st m with
    | mk s1 o1 =>
    rw [h1] at he
    cases o1 with
    | error e => simp at he
    | ok x =>
      simp only at he
      cases h2 : zEncodeAll L order cfg s1.1 s1.2 ms with
      | mk s2 o2 =>
      rw [h2] at he
      cases o2 with
      | error e => simp at he
      | ok y =>
        simp only [Prod.mk.injEq, Except.ok.injEq] at he
        obtain ⟨_, rfl⟩ := he
        obtain ⟨hl, t, hloop, hs1, hfr⟩ := zEncode_data h1
        obtain ⟨hdrop, _, hflen⟩ := frame_spec hfr
        obtain ⟨u1, hu1, hp1⟩ := ok.unzip_zip z u (m.length :: t) hp
        obtain ⟨d1, hs', hsy1, hf1, hd1, hall1⟩ := encodeLoop_spec hco ho S m (sync_grow hsy) hf (hb m (by simp)) hloop
        rw [← hs1] at hp1
        obtain ⟨u2, d2, outs, hr, hall2⟩ := ih hp1 hsy1 hf1 (fun x hx => hb x (by simp [hx])) h2
        refine ⟨u2, d2, hs' :: outs, ?_, .cons hall1 hall2⟩
        have h8 : (List.take 8 x).length = 8 := by rw [List.length_take]; omega
        have hdec : decodeHeaders cfg d (x.take 8 ++ m.length :: t) = .ok (d1, hs') := by
          have := hd1 []
          rw [List.append_nil] at this
          have e : (x.take 8 ++ m.length :: t).drop 8 = m.length :: t := by
            rw [List.drop_append_of_le_length (by omega), List.drop_of_length_le (by omega), List.nil_append]
          simp only [decodeHeaders, e, readByte, bind, Except.bind, this]
        simp only [zReceiveAll, unzipPy, hdrop, hu1, bind, Except.bind, hdec, hr]

/-- C102, what holds instead: for every zlib, buffer, mode of delta coding, coder, order and session of messages made of
bytes in which no two different headers collide, if all messages are encoded then a receiver that decompresses what
follows the frame header gets exactly the lists of headers that were sent.  Missing: that the decoder does so. -/
theorem C102_payload_partial (L : Lib) (ok : Ok L) (w : Int) (h9 : 9 ≤ w) (h15 : w ≤ 15) (dict : Str) (cfg : Cfg)
    (hmax : 0 ≤ cfg.maxSize) (hco : Coded cfg) (order : Order) (ho : ∀ n t, (order n t).Perm t) (ms : List (List Hdr))
    (hb : ByteSession ms) (hnc : NoCollision ms) :
    ∃ z u, zInit L w dict = .ok (z, u) ∧ ∀ s fs, zEncodeAll L order cfg z (Enc.init cfg) ms = (s, .ok fs) →
      ∃ s', zReceiveAll L cfg u (Dec.init cfg) fs = .ok (s', ms) := by
  obtain ⟨z, u, hz, hp⟩ := zInit_ok ok h9 h15 dict
  refine ⟨z, u, hz, fun s fs he => ?_⟩
  obtain ⟨u', d', outs, h1, h2⟩ := zEncodeAll_spec ok (coded_ok hco) ho (Sent ms) ms hp (init_sync cfg hmax) (init_from _ _)
    (fun m hm h hh => ⟨hb m hm h hh, m, hm, hh⟩) he
  have : outs = ms := forall₂_eq h2 fun m hm y hy => forall₂_eq hy fun h hh h' hl => by
    obtain ⟨hj, m', hm', hh'⟩ := hl
    exact hnc m' hm' h' hh' m hm h hh hj
  exact ⟨_, this ▸ h1⟩

/-- A session of two messages through stored blocks: encoded, received, and not decoded. -/
example : ∃ (z u : Bool) (s : Bool × Enc) (fs : List (List Nat)),
    zInit stored 15 b!"dict" = .ok (z, u) ∧
    zEncodeAll stored (fun _ t => t) defaultCfg z (Enc.init defaultCfg) [[(b!"x", b!"1")], [(b!"x", b!"1"), (b!"y", b!"")]] = (s, .ok fs) ∧
    fs.map List.length = [49, 49] ∧ NoCollision [[(b!"x", b!"1")], [(b!"x", b!"1"), (b!"y", b!"")]] := by
  refine ⟨true, true, _, _, rfl, rfl, by decide +kernel, ?_⟩
  unfold NoCollision
  decide +kernel

/-! ### C103: http1_gzip, http1_huffman -/

/-- A receiver of the frames of a session: it starts with what the compressor made of the dictionary and was never sent. -/
def inflateAll (L : Lib) : L.U → List Str → Option (List Str)
  | _, [] => some []
  | u, f :: fs =>
    match L.unzip u f with
    | none => none
    | some (u, t) => (inflateAll L u fs).map (t :: ·)

theorem inflateAll_ok {L : Lib} (ok : Ok L) (hs : List (Dict Str Str)) : ∀ {z : L.Z} {u : L.U}, ok.Paired z u →
    inflateAll L u (Text.gzipAll L z hs).2 = some (hs.map Text.http1Compress) := by
  induction hs with
  | nil => intros; rfl
  | cons h hs ih =>
    intro z u hp
    obtain ⟨u', hu, hp'⟩ := ok.unzip_zip z u (Text.formatHttp1 Text.defaultFmt h) hp
    simp only [Text.gzipAll, Text.gzipCompress, inflateAll, hu, ih hp', Option.map_some, List.map_cons]
    rfl

/-- C103.  For every zlib and every session of header dictionaries: a Processor is made, and a receiver that has also
decompressed what the constructor made of the dictionary gets from the frames the HTTP/1 texts of the messages, in order,
each from its own frame. -/
theorem C103_texts (L : Lib) (ok : Ok L) (dict : Str) :
    ∃ z u, L.new 15 = .ok z ∧ L.unzip L.start (L.zip z dict).2 = some (u, dict) ∧
      ∃ z', Text.gzipInit L dict = .ok z' ∧
        ∀ hs, inflateAll L u (Text.gzipAll L z' hs).2 = some (hs.map Text.http1Compress) := by
  obtain ⟨z, hz, hp⟩ := ok.new_ok 15 (by decide) (by decide)
  obtain ⟨u, hu, hp'⟩ := ok.unzip_zip z L.start dict hp
  exact ⟨z, u, hz, hu, _, by simp [Text.gzipInit, hz, bind, Except.bind], fun hs => inflateAll_ok ok hs hp'⟩

/-- C103: so from the frames of messages that can be written as HTTP/1, parse_http1 gives back the headers. -/
theorem C103_headers (L : Lib) (ok : Ok L) (dict : Str) (lower : Str → Str) (ws : Nat → Bool) (hws : Text.Spec.Blank ws)
    (hl : lower b!"host" = b!"host") (isRequest : Bool) :
    ∃ z u, L.new 15 = .ok z ∧ L.unzip L.start (L.zip z dict).2 = some (u, dict) ∧
      ∃ z', Text.gzipInit L dict = .ok z' ∧
        ∀ hs : List (Dict Str Str), (∀ h ∈ hs, Text.Spec.Message lower ws isRequest b!"host" h) →
          ∃ texts, inflateAll L u (Text.gzipAll L z' hs).2 = some texts ∧
            List.Forall₂ (fun h t => ∃ out, Text.http1Decompress lower ws isRequest t = .ok out ∧
              Text.Spec.Decoded isRequest b!"HTTP/1.1" h out) hs texts := by
  obtain ⟨z, u, h1, h2, z', h3, h4⟩ := C103_texts L ok dict
  refine ⟨z, u, h1, h2, z', h3, fun hs hm => ⟨_, h4 hs, ?_⟩⟩
  rw [List.forall₂_map_right_iff]
  exact List.forall₂_same.2 fun h hh => C42_http1_round_trip lower ws hws hl isRequest h (hm h hh)

/-- C103: the Processor itself has no way back. -/
theorem C103_decompress_false (compressed : Str) : Text.gzipDecompress compressed = .error .notImpl := rfl

/-- The contract is met, for instance by stored blocks; there an inflater that starts with the frames gets nothing. -/
example : Nonempty (Ok stored) := ⟨storedOk⟩

example : ∃ z, Text.gzipInit stored b!"dict" = .ok z ∧ ∀ hs : List (Dict Str Str), hs ≠ [] →
    inflateAll stored stored.start (Text.gzipAll stored z hs).2 = none := by
  refine ⟨true, rfl, fun hs hne => ?_⟩
  cases hs with
  | nil => exact absurd rfl hne
  | cons h hs =>
    have hb : ∀ s : Str, ∃ t, blocks s = 0 :: t := by
      intro s
      cases s <;> exact ⟨_, rfl⟩
    obtain ⟨t, ht⟩ := hb (Text.formatHttp1 Text.defaultFmt h)
    simp [Text.gzipAll, Text.gzipCompress, inflateAll, stored, ht]

end Verif.Props
