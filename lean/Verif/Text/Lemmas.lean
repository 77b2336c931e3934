import Verif.Text.Model
import Verif.Text.Spec
import Verif.PyLemmas
import Verif.Lib.Lemmas
import Mathlib.Data.List.Forall2
/-
Formatting then parsing an HTTP/1 message.
-/
namespace Verif.Text
open Verif Spec

/-! ### splitting the message into lines -/

theorem head?_joinWith {sep e : Str} (es : List Str) (he : e ≠ []) : (joinWith sep (e :: es)).head? = e.head? := by
  cases es with
  | nil => rfl
  | cons f fs =>
    cases e with
    | nil => exact absurd rfl he
    | cons a as => rfl

theorem getLast?_joinWith {sep e : Str} (es : List Str) (he : e ≠ []) :
    (joinWith sep (es ++ [e])).getLast? = e.getLast? := by
  induction es with
  | nil => rfl
  | cons f fs ih =>
    have hne : fs ++ [e] ≠ [] := by simp
    cases hfs : fs ++ [e] with
    | nil => exact absurd hfs hne
    | cons g gs =>
      rw [List.cons_append, hfs, joinWith]
      rw [hfs] at ih
      rw [List.getLast?_append, ih]
      cases he' : e.getLast? with
      | none => exact absurd (List.getLast?_eq_none_iff.1 he') he
      | some x => rfl
      simp

/-- Lines ended by `r ++ "\n"` and joined. -/
theorem flat_eq_join (r : Str) (ls : List Str) (l : Str) :
    (ls ++ [l]).flatMap (fun x => x ++ (r ++ [10])) = joinWith [10] (ls.map (· ++ r) ++ [l]) ++ (r ++ [10]) := by
  induction ls with
  | nil => simp [joinWith]
  | cons a as ih =>
    rw [List.cons_append, List.flatMap_cons, ih, List.map_cons, List.cons_append]
    have hne : as.map (· ++ r) ++ [l] ≠ [] := by simp
    cases h : as.map (· ++ r) ++ [l] with
    | nil => exact absurd h hne
    | cons g gs => simp [joinWith]

/-- A string split into its right-stripped part and the rest. -/
theorem rstrip_split (ws : Nat → Bool) (s : Str) : ∃ x w, s = x ++ w ∧ (∀ c ∈ w, ws c = true) ∧
    (∀ c, x.getLast? = some c → ws c = false) := by
  obtain ⟨a, h1, h2⟩ := dropWhile_split ws s.reverse
  refine ⟨(s.reverse.dropWhile ws).reverse, a.reverse, ?_, by simpa using h2, ?_⟩
  · have := congrArg List.reverse h1
    simpa using this
  · intro c hc
    rw [List.getLast?_reverse] at hc
    exact dropWhile_head ws _ c hc

/-- Splitting a formatted message gives back the lines, followed by a CR each except for the last. -/
theorem split_message {ws : Nat → Bool} (hlf : ws 10 = true) {r : Str} (hr : ∀ c ∈ r, ws c = true) (hr10 : 10 ∉ r)
    (ls : List Str) (l x w : Str) (hx : l = x ++ w) (hw : ∀ c ∈ w, ws c = true)
    (hxl : ∀ c, x.getLast? = some c → ws c = false) (hxne : x ≠ [])
    (h10 : ∀ y ∈ ls ++ [l], 10 ∉ y) (hhead : ∀ c, (ls ++ [x]).head?.bind List.head? = some c → ws c = false)
    (hne : (ls ++ [x]).headD [] ≠ []) :
    splitOn 10 (stripBy ws ((ls ++ [l]).flatMap (fun x => x ++ (r ++ [10])) ++ (r ++ [10]))) =
      ls.map (· ++ r) ++ [x] := by
  have hjoin : joinWith [10] (ls.map (· ++ r) ++ [l]) = joinWith [10] (ls.map (· ++ r) ++ [x]) ++ w := by
    clear h10 hhead hne
    induction ls with
    | nil => simp [joinWith, hx]
    | cons a as ih =>
      rw [List.map_cons, List.cons_append, List.cons_append]
      have h1 : as.map (· ++ r) ++ [l] ≠ [] := by simp
      have h2 : as.map (· ++ r) ++ [x] ≠ [] := by simp
      cases e1 : as.map (· ++ r) ++ [l] with
      | nil => exact absurd e1 h1
      | cons g gs =>
        cases e2 : as.map (· ++ r) ++ [x] with
        | nil => exact absurd e2 h2
        | cons g' gs' =>
          have j : ∀ (b c : Str) (cs : List Str), joinWith [10] (b :: c :: cs) = b ++ [10] ++ joinWith [10] (c :: cs) := by
            intros; rfl
          rw [j, j, ← e1, ← e2, ih]
          simp
  rw [flat_eq_join, hjoin]
  have key : stripBy ws ([] ++ joinWith [10] (ls.map (· ++ r) ++ [x]) ++ (w ++ (r ++ [10]) ++ (r ++ [10]))) =
      joinWith [10] (ls.map (· ++ r) ++ [x]) := by
    refine stripBy_unique (by simp) ?_ ?_ ?_
    · intro c hc
      simp only [List.mem_append, List.mem_singleton] at hc
      rcases hc with (hc | hc | hc) | hc | hc
      · exact hw c hc
      · exact hr c hc
      · rw [hc]; exact hlf
      · exact hr c hc
      · rw [hc]; exact hlf
    · intro c hc
      apply hhead
      cases ls with
      | nil =>
        simp only [List.map_nil, List.nil_append] at hc ⊢
        simpa [joinWith] using hc
      | cons a as =>
        simp only [List.cons_append, List.headD_cons] at hne
        rw [List.map_cons, List.cons_append, head?_joinWith _ (by simp [hne])] at hc
        simp only [List.cons_append, List.head?_cons, Option.bind_some]
        cases a with
        | nil => exact absurd rfl hne
        | cons y ys => simpa using hc
    · intro c hc
      rw [getLast?_joinWith _ hxne] at hc
      exact hxl c hc
  have e : joinWith [10] (ls.map (· ++ r) ++ [x]) ++ w ++ (r ++ [10]) ++ (r ++ [10]) =
      [] ++ joinWith [10] (ls.map (· ++ r) ++ [x]) ++ (w ++ (r ++ [10]) ++ (r ++ [10])) := by simp
  rw [e, key, splitOn_joinWith (by simp)]
  intro p hp
  simp only [List.mem_append, List.mem_map, List.mem_singleton] at hp
  rcases hp with ⟨y, hy, rfl⟩ | rfl
  · intro hc
    rcases List.mem_append.1 hc with hc | hc
    · exact h10 y (by simp [hy]) hc
    · exact hr10 hc
  · intro hc
    exact h10 l (by simp) (by rw [hx]; simp [hc])

/-! ### one line -/

/-- `line` is `key: piece` with whitespace around the piece. -/
def LineFor (ws : Nat → Bool) (kv : Str × Str) (line : Str) : Prop :=
  ∃ a b, (∀ c ∈ a, ws c = true) ∧ (∀ c ∈ b, ws c = true) ∧ line = kv.1 ++ 58 :: (a ++ kv.2 ++ b)

theorem nameValue_line {lower : Str → Str} {k : Str} (hk : Name lower k) (rest : Str) :
    nameValue (k ++ 58 :: rest) = .ok (k, rest) := by
  have key : ∀ n : Str, 58 ∉ n → unpackColon (n ++ 58 :: rest) = .ok (n, rest) := by
    intro n hn
    unfold unpackColon
    rw [splitOnce_eq hn]
  rcases hk.colon with h | ⟨n, rfl, hn⟩
  · cases k with
    | nil => exact absurd rfl hk.nonempty
    | cons c cs =>
      have hc : c ≠ 58 := by rintro rfl; simp at h
      simp only [nameValue, List.cons_append, if_neg hc]
      exact key (c :: cs) h
  · simp only [nameValue, List.cons_append, if_pos, key n hn, bind, Except.bind, pure, Except.pure]

theorem parseLines_spec {lower : Str → Str} {ws : Nat → Bool} {kvs : List (Str × Str)} {lines : List Str}
    (h : List.Forall₂ (LineFor ws) kvs lines) (hn : ∀ kv ∈ kvs, Name lower kv.1)
    (ht : ∀ kv ∈ kvs, Trimmed ws kv.2) : ∀ out,
    parseLines lower ws lines out = .ok (kvs.foldl (fun o kv => addPiece o kv.1 kv.2) out) := by
  induction h with
  | nil => intro out; rfl
  | @cons kv line kvs lines hl _ ih =>
    intro out
    obtain ⟨a, b, ha, hb, rfl⟩ := hl
    have hk := hn kv (by simp)
    have ht' := ht kv (by simp)
    rw [parseLines, if_neg (by simp), nameValue_line hk]
    simp only [bind, Except.bind]
    rw [hk.lowercase, stripBy_unique ha hb ht'.1 ht'.2]
    exact ih (fun x hx => hn x (by simp [hx])) (fun x hx => ht x (by simp [hx])) _

/-! ### collecting the pieces -/

theorem get?_append_last {d : Dict Str Str} {k v : Str} (h : k ∉ d.keys) : Dict.get? (d ++ [(k, v)]) k = some v := by
  rw [← Dict.set_new h, Dict.get?_set, if_pos rfl]

theorem set_append_last {d : Dict Str Str} {k v w : Str} (h : k ∉ d.keys) :
    Dict.set (d ++ [(k, v)]) k w = d ++ [(k, w)] := by
  induction d with
  | nil => simp [Dict.set]
  | cons a as ih =>
    obtain ⟨k', v'⟩ := a
    simp only [Dict.keys, List.map_cons, List.mem_cons, not_or] at h
    rw [List.cons_append, Dict.set, if_neg (fun hc => h.1 hc.symm), ih h.2]
    rfl

theorem addPieces_more {d : Dict Str Str} {k : Str} (h : k ∉ d.keys) (ps : List Str) : ∀ q,
    (ps.map (fun p => (k, p))).foldl (fun o kv => addPiece o kv.1 kv.2) (d ++ [(k, q)]) =
      d ++ [(k, joinWith [0] (q :: ps))] := by
  induction ps with
  | nil => intro q; rfl
  | cons p ps ih =>
    intro q
    rw [List.map_cons, List.foldl_cons]
    have : addPiece (d ++ [(k, q)]) k p = d ++ [(k, q ++ ([0] ++ p))] := by
      unfold addPiece
      rw [get?_append_last h]
      exact set_append_last h
    simp only [this]
    rw [ih]
    congr 3
    cases ps with
    | nil => simp [joinWith]
    | cons a as => simp [joinWith]

theorem addPieces {d : Dict Str Str} {k : Str} (h : k ∉ d.keys) (v : Str) :
    ((splitOn 0 v).map (fun p => (k, p))).foldl (fun o kv => addPiece o kv.1 kv.2) d = d ++ [(k, v)] := by
  have hj := joinWith_splitOn 0 v
  cases hs : splitOn 0 v with
  | nil => exact absurd hs (splitOn_ne_nil 0 v)
  | cons p ps =>
    rw [hs] at hj
    rw [List.map_cons, List.foldl_cons]
    have : addPiece d k p = d ++ [(k, p)] := by
      unfold addPiece
      rw [Dict.get?_none.2 h]
      exact Dict.set_new h p
    simp only [this]
    rw [addPieces_more h, hj]

/-- The pieces of all headers. -/
def pieces (kvs : List (Str × Str)) : List (Str × Str) := kvs.flatMap fun kv => (splitOn 0 kv.2).map fun p => (kv.1, p)

theorem addAll (kvs : List (Str × Str)) : ∀ (d : Dict Str Str), (Dict.keys (d ++ kvs)).Nodup →
    (pieces kvs).foldl (fun o kv => addPiece o kv.1 kv.2) d = d ++ kvs := by
  induction kvs with
  | nil => intro d _; simp [pieces]
  | cons kv kvs ih =>
    intro d hnd
    have hk : kv.1 ∉ d.keys := by
      intro hc
      simp only [Dict.keys, List.map_append, List.map_cons] at hnd hc
      exact (List.nodup_append.1 hnd).2.2 _ hc _ (by simp) rfl
    rw [pieces, List.flatMap_cons, List.foldl_append, addPieces hk]
    have := ih (d ++ [(kv.1, kv.2)]) (by simpa using hnd)
    unfold pieces at this
    rw [this]
    simp

/-! ### the first line -/

theorem dropWhile_word {ws : Nat → Bool} {a : Str} (ha : Word ws a) (rest : Str) :
    (a ++ rest).dropWhile ws = a ++ rest := by
  obtain ⟨hne, h⟩ := ha
  cases a with
  | nil => exact absurd rfl hne
  | cons c cs => rw [List.cons_append, List.dropWhile_cons, if_neg]; simp [h c (by simp)]

theorem takeWhile_word {ws : Nat → Bool} {a : Str} (ha : ∀ c ∈ a, ws c = false) {b : Nat} (hb : ws b = true) (rest : Str) :
    (a ++ b :: rest).takeWhile (fun c => !ws c) = a ∧ (a ++ b :: rest).dropWhile (fun c => !ws c) = b :: rest := by
  induction a with
  | nil => simp [hb]
  | cons c cs ih =>
    have hc := ha c (by simp)
    have := ih (fun x hx => ha x (by simp [hx]))
    simp [hc, this]

theorem splitWs2_three {ws : Nat → Bool} (h32 : ws 32 = true) {a b c w : Str} (ha : Word ws a) (hb : Word ws b)
    (hc : c ≠ []) (hc' : ∀ x, c.head? = some x → ws x = false) :
    splitWs2 ws (a ++ [32] ++ b ++ [32] ++ c ++ w) = [a, b, c ++ w] := by
  have e : a ++ [32] ++ b ++ [32] ++ c ++ w = a ++ 32 :: (b ++ 32 :: (c ++ w)) := by simp
  have hcw : (c ++ w).dropWhile ws = c ++ w := by
    cases c with
    | nil => exact absurd rfl hc
    | cons x xs => rw [List.cons_append, List.dropWhile_cons, if_neg]; simp [hc' x rfl]
  have h1 := takeWhile_word ha.2 h32 (b ++ 32 :: (c ++ w))
  have h2 := takeWhile_word hb.2 h32 (c ++ w)
  have d1 : (32 :: (b ++ 32 :: (c ++ w))).dropWhile ws = b ++ 32 :: (c ++ w) := by
    rw [List.dropWhile_cons, if_pos h32, dropWhile_word hb]
  have d2 : (32 :: (c ++ w)).dropWhile ws = c ++ w := by
    rw [List.dropWhile_cons, if_pos h32, hcw]
  unfold splitWs2
  rw [e]
  simp only [dropWhile_word ha, h1.1, h1.2, d1, h2.1, h2.2, d2]
  rw [if_neg (by simp), if_neg (by simp), if_neg (by simp [hc])]

end Verif.Text
