import Verif.Fork.Model
import Verif.PyLemmas
/- Lemmas about the two processes: texts made of lines. -/
namespace Verif.Fork
open Verif

/-- Lines, each with a newline behind it. -/
def unl (ls : List Str) : Str := ls.flatMap (· ++ [10])

/-- Only white space. -/
def Blank (l : Str) : Prop := ∀ c ∈ l, isWs c = true

theorem unl_append (a b : List Str) : unl (a ++ b) = unl a ++ unl b := by simp [unl]
theorem unl_cons (l : Str) (ls : List Str) : unl (l :: ls) = l ++ 10 :: unl ls := by simp [unl]

theorem stripBy_nil_iff (p : Nat → Bool) (s : Str) : stripBy p s = [] ↔ ∀ c ∈ s, p c = true := by
  constructor
  · intro h
    obtain ⟨a, b, e, ha, hb, _⟩ := stripBy_spec p s
    rw [h] at e
    intro c hc
    rw [e] at hc
    simp only [List.append_nil, List.mem_append] at hc
    exact hc.elim (ha c) (hb c)
  · intro h
    have := stripBy_unique (p := p) (a := s) (x := []) (b := []) h (by simp) (by simp) (by simp)
    simpa using this

theorem strip_line (l : Str) : stripWs (l ++ [10]) = [] ↔ Blank l := by
  rw [stripWs, stripBy_nil_iff]
  constructor
  · intro h c hc; exact h c (by simp [hc])
  · intro h c hc
    rcases List.mem_append.1 hc with hc | hc
    · exact h c hc
    · simp only [List.mem_singleton] at hc; subst hc; decide

theorem readLine_line {l : Str} (h : 10 ∉ l) (r : Str) : readLine (l ++ 10 :: r) = some (l ++ [10], r) := by
  induction l with
  | nil => simp [readLine]
  | cons c l ih =>
    simp only [List.mem_cons, not_or] at h
    rw [List.cons_append, readLine, if_neg (fun e => h.1 e.symm), ih h.2]
    simp

theorem readBlock_blank {l : Str} (h : 10 ∉ l) (hb : Blank l) (r : Str) :
    readBlock (l ++ 10 :: r) = some ([], r) := by
  unfold readBlock
  split
  · rename_i e; rw [readLine_line h] at e; simp at e
  · rename_i line rest e
    rw [readLine_line h, Option.some.injEq, Prod.mk.injEq] at e
    obtain ⟨rfl, rfl⟩ := e
    rw [if_pos ((strip_line l).2 hb)]

theorem readBlock_line {l : Str} (h : 10 ∉ l) (hb : ¬ Blank l) (r : Str) :
    readBlock (l ++ 10 :: r) = (readBlock r).map fun lr => (l ++ [10] ++ lr.1, lr.2) := by
  rw [readBlock]
  split
  · rename_i e; rw [readLine_line h] at e; simp at e
  · rename_i line rest e
    rw [readLine_line h, Option.some.injEq, Prod.mk.injEq] at e
    obtain ⟨rfl, rfl⟩ := e
    rw [if_neg (fun c => hb ((strip_line l).1 c))]

theorem readBlock_nil : readBlock [] = none := by
  rw [readBlock]; rfl

theorem readBlock_unl (pre : List Str) (b : Str) (r : Str) (h1 : ∀ l ∈ pre, 10 ∉ l ∧ ¬ Blank l) (h2 : 10 ∉ b)
    (h3 : Blank b) : readBlock (unl pre ++ (b ++ 10 :: r)) = some (unl pre, r) := by
  induction pre with
  | nil => simpa [unl] using readBlock_blank h2 h3 r
  | cons l pre ih =>
    obtain ⟨n, nb⟩ := h1 l (by simp)
    rw [unl_cons, List.append_assoc, List.cons_append, readBlock_line n nb, ih (fun x hx => h1 x (by simp [hx]))]
    simp

/-- Up to the first blank line. -/
theorem first_blank (ls : List Str) (h : ∃ l ∈ ls, Blank l) :
    ∃ pre b post, ls = pre ++ b :: post ∧ Blank b ∧ ∀ l ∈ pre, ¬ Blank l := by
  induction ls with
  | nil => obtain ⟨l, hm, _⟩ := h; simp at hm
  | cons l ls ih =>
    by_cases hb : Blank l
    · exact ⟨[], l, ls, rfl, hb, by simp⟩
    · have : ∃ l ∈ ls, Blank l := by
        obtain ⟨x, hm, hx⟩ := h
        rcases List.mem_cons.1 hm with rfl | hm
        · exact absurd hx hb
        · exact ⟨x, hm, hx⟩
      obtain ⟨pre, b, post, e, h1, h2⟩ := ih this
      refine ⟨l :: pre, b, post, by simp [e], h1, ?_⟩
      intro x hx
      rcases List.mem_cons.1 hx with rfl | hx
      · exact hb
      · exact h2 x hx

theorem readBlock_some (ls : List Str) (hn : ∀ l ∈ ls, 10 ∉ l) (h : ∃ l ∈ ls, Blank l) :
    ∃ pre b post, ls = pre ++ b :: post ∧ readBlock (unl ls) = some (unl pre, unl post) := by
  obtain ⟨pre, b, post, rfl, h1, h2⟩ := first_blank ls h
  refine ⟨pre, b, post, rfl, ?_⟩
  rw [unl_append, unl_cons]
  exact readBlock_unl pre b _ (fun l hl => ⟨hn l (by simp [hl]), h2 l hl⟩) (hn b (by simp)) h1

theorem child_none {s : Str} (h : readBlock s = none) : child s = ([], s) := by
  rw [child]
  split
  · rfl
  · rename_i e; rw [h] at e; simp at e

theorem child_some {s out rest : Str} (h : readBlock s = some (out, rest)) :
    child s = (out ++ [10] ++ (child rest).1, (child rest).2) := by
  rw [child]
  split
  · rename_i e; rw [h] at e; simp at e
  · rename_i o r e
    rw [h, Option.some.injEq, Prod.mk.injEq] at e
    obtain ⟨rfl, rfl⟩ := e
    rfl

theorem child_unl (ls : List Str) (hn : ∀ l ∈ ls, 10 ∉ l) (h : ∀ l, ls.getLast? = some l → Blank l) :
    ∃ os, child (unl ls) = (unl os, []) ∧ (∀ l ∈ os, 10 ∉ l) ∧ (ls ≠ [] → ∃ l ∈ os, Blank l) := by
  induction hlen : ls.length using Nat.strongRecOn generalizing ls with
  | ind n ih =>
    by_cases h0 : ls = []
    · subst h0
      exact ⟨[], by simpa [unl] using child_none readBlock_nil, by simp, by simp⟩
    · obtain ⟨x, hx⟩ : ∃ x, ls.getLast? = some x := by
        cases hg : ls.getLast? with
        | none => exact absurd (List.getLast?_eq_none_iff.1 hg) h0
        | some x => exact ⟨x, rfl⟩
      obtain ⟨pre, b, post, e, hr⟩ := readBlock_some ls hn ⟨x, List.mem_of_getLast? hx, h x hx⟩
      have hlt : post.length < n := by rw [← hlen, e]; simp; omega
      obtain ⟨os, h1, h2, _⟩ := ih post.length hlt post (fun l hl => hn l (by simp [e, hl]))
        (fun l hl => h l (by
          have hne : post ≠ [] := by rintro rfl; simp at hl
          rw [e, List.getLast?_append_of_ne_nil _ (by simp), List.getLast?_cons_of_ne_nil hne]
          exact hl)) rfl
      refine ⟨pre ++ [[]] ++ os, ?_, ?_, ?_⟩
      · rw [child_some hr, h1, unl_append, unl_append]
        simp [unl]
      · intro l hl
        simp only [List.append_assoc, List.mem_append, List.mem_singleton] at hl
        rcases hl with hl | rfl | hl
        · exact hn l (by simp [e, hl])
        · simp
        · exact h2 l hl
      · intro _
        exact ⟨[], by simp, by simp [Blank]⟩

theorem unl_exists (t : Str) : ∃ ls, t ++ [10] = unl ls ∧ ∀ l ∈ ls, 10 ∉ l := by
  refine ⟨splitOn 10 t, ?_, fun l hl => splitOn_noSep_mem hl⟩
  have h := joinWith_splitOn 10 t
  have : ∀ ps : List Str, ps ≠ [] → joinWith [10] ps ++ [10] = unl ps := by
    intro ps
    induction ps with
    | nil => simp
    | cons p ps ih =>
      intro _
      cases ps with
      | nil => simp [joinWith, unl]
      | cons q ps =>
        have e : joinWith [10] (p :: q :: ps) = p ++ [10] ++ joinWith [10] (q :: ps) := rfl
        rw [e, unl_cons, ← ih (by simp)]
        simp
  rw [← this _ (splitOn_ne_nil 10 t), h]

/-- The message ends with a line "\r". -/
theorem format_unl (h : Dict Str Str) :
    ∃ ls, Text.formatHttp1 Text.defaultFmt h = unl (ls ++ [[13]]) ∧ ∀ l ∈ ls, 10 ∉ l := by
  have key : ∃ t, Text.topLine Text.defaultFmt h ++ Text.defaultFmt.delimiter ++
      h.flatMap (Text.headerLines Text.defaultFmt (Text.avoidList h)) = t ++ [10] := by
    generalize Text.avoidList h = av
    generalize Text.topLine Text.defaultFmt h = tl
    have hd : Text.defaultFmt.delimiter = [13, 10] := rfl
    have gen : ∀ (x : Str) (d : Dict Str Str), (∃ t, x = t ++ [10]) →
        ∃ t, x ++ d.flatMap (Text.headerLines Text.defaultFmt av) = t ++ [10] := by
      intro x d
      induction d generalizing x with
      | nil => intro hx; simpa using hx
      | cons kv d ih =>
        intro hx
        rw [List.flatMap_cons, ← List.append_assoc]
        apply ih
        unfold Text.headerLines
        split
        · simpa using hx
        · simp only []
          generalize (if kv.1 = b!":host" then Text.defaultFmt.host else kv.1) = key
          generalize splitOn 0 kv.2 = vs
          clear ih
          induction vs generalizing x with
          | nil => simpa using hx
          | cons v vs ih =>
            rw [List.flatMap_cons, ← List.append_assoc]
            apply ih
            exact ⟨x ++ (key ++ Text.defaultFmt.valsep ++ v ++ [13]), by simp [hd]⟩
    exact gen _ h ⟨tl ++ [13], by simp [hd]⟩
  obtain ⟨t, ht⟩ := key
  obtain ⟨ls, e, hn⟩ := unl_exists t
  refine ⟨ls, ?_, hn⟩
  unfold Text.formatHttp1
  rw [ht, e, unl_append]
  rfl

/-- With plain headers the body is made of lines that are not blank. -/
theorem format_lines (h : Dict Str Str) (htop : 10 ∉ Text.topLine Text.defaultFmt h)
    (hb : ¬ Blank (Text.topLine Text.defaultFmt h))
    (hh : ∀ kv ∈ h, kv.1 ∉ Text.avoidList h → 10 ∉ kv.1 ∧ 10 ∉ kv.2) :
    ∃ ls, Text.formatHttp1 Text.defaultFmt h = unl ls ++ [13, 10] ∧ ∀ l ∈ ls, 10 ∉ l ∧ ¬ Blank l := by
  unfold Text.formatHttp1
  generalize Text.topLine Text.defaultFmt h = tl at *
  generalize Text.avoidList h = av at *
  have key : ∃ ls, h.flatMap (Text.headerLines Text.defaultFmt av) = unl ls ∧ ∀ l ∈ ls, 10 ∉ l ∧ ¬ Blank l := by
    induction h with
    | nil => exact ⟨[], rfl, by simp⟩
    | cons kv d ih =>
      obtain ⟨ls, e, hls⟩ := ih (fun x hx => hh x (by simp [hx]))
      rw [List.flatMap_cons, e]
      unfold Text.headerLines
      split
      · exact ⟨ls, by simp, hls⟩
      · rename_i hav
        obtain ⟨n1, n2⟩ := hh kv (by simp) hav
        simp only []
        have hk : 10 ∉ (if kv.1 = b!":host" then Text.defaultFmt.host else kv.1) := by
          split
          · decide
          · exact n1
        generalize (if kv.1 = b!":host" then Text.defaultFmt.host else kv.1) = key at *
        have hv : ∀ v ∈ splitOn 0 kv.2, 10 ∉ v := by
          intro v hv hm
          have : ∀ (s : Str) (c : Nat) (p : Str), p ∈ splitOn c s → ∀ x ∈ p, x ∈ s := by
            intro s c
            induction s with
            | nil => intro p hp x hx; simp [splitOn] at hp; subst hp; simp at hx
            | cons y s ih =>
              intro p hp x hx
              unfold splitOn at hp
              split at hp
              · rcases List.mem_cons.1 hp with rfl | hp
                · simp at hx
                · exact List.mem_cons_of_mem _ (ih p hp x hx)
              · split at hp
                · simp at hp; subst hp; simp at hx; simp [hx]
                · rename_i q qs e
                  rcases List.mem_cons.1 hp with rfl | hp
                  · rcases List.mem_cons.1 hx with rfl | hx
                    · simp
                    · exact List.mem_cons_of_mem _ (ih q (by simp [e]) x hx)
                  · exact List.mem_cons_of_mem _ (ih p (by simp [e, hp]) x hx)
          exact n2 (this _ _ _ hv _ hm)
        refine ⟨(splitOn 0 kv.2).map (fun v => key ++ b!": " ++ v ++ [13]) ++ ls, ?_, ?_⟩
        · rw [unl_append]
          congr 1
          simp [unl, List.flatMap_map, Text.defaultFmt]
        · intro l hl
          rcases List.mem_append.1 hl with hl | hl
          · obtain ⟨v, hm, rfl⟩ := List.mem_map.1 hl
            constructor
            · simp [hk, hv v hm]
            · intro hbl
              have := hbl 58 (by simp)
              simp [isWs] at this
          · exact hls l hl
  obtain ⟨ls, e, hls⟩ := key
  refine ⟨(tl ++ [13]) :: ls, ?_, ?_⟩
  · rw [e, unl_cons]
    simp [Text.defaultFmt]
  · intro l hl
    rcases List.mem_cons.1 hl with rfl | hl
    · refine ⟨by simp [htop], fun hbl => hb fun c hc => hbl c (by simp [hc])⟩
    · exact hls l hl

theorem readBlockEof_lt {s : Str} (h0 : s ≠ []) : (readBlockEof s).2.length < s.length := by
  induction hn : s.length using Nat.strongRecOn generalizing s with
  | ind n ih =>
    have hpos : 0 < s.length := List.length_pos_iff.2 h0
    rw [readBlockEof]
    simp only []
    split
    · unfold readLineEof
      split
      · simp; omega
      · rename_i lr e
        obtain ⟨l, r⟩ := lr
        have := readLine_lt e
        simp only
        omega
    · split
      · simp; omega
      · rename_i line rest e
        have hlt := readLine_lt e
        by_cases hr : rest = []
        · subst hr
          have : (readBlockEof []).2 = [] := by
            rw [readBlockEof]; simp [readLineEof, readLine, stripWs, stripBy]
          simp [this]; omega
        · have := ih rest.length (by omega) hr rfl
          simp only
          omega

end Verif.Fork
