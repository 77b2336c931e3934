import Verif.Fork.Lemmas
/-
C97: compressor/fork with sample_exec_codec.py as its child.
-/
namespace Verif.Props
open Verif Verif.Fork

/-- C97.  If no header is written with a newline in it and the first line is not blank, compress
returns the HTTP/1 message without its last empty line and leaves both pipes empty, so that the next
call starts as this one did. -/
theorem C97_echo (h : Dict Str Str) (htop : 10 ∉ Text.topLine Text.defaultFmt h)
    (hb : ¬ Blank (Text.topLine Text.defaultFmt h))
    (hh : ∀ kv ∈ h, kv.1 ∉ Text.avoidList h → 10 ∉ kv.1 ∧ 10 ∉ kv.2) :
    ∃ out, Text.formatHttp1 Text.defaultFmt h = out ++ b!"\r\n" ∧
      compress { toChild := [], fromChild := [] } h = some (out, { toChild := [], fromChild := [] }) := by
  obtain ⟨ls, e, hls⟩ := format_lines h htop hb hh
  refine ⟨unl ls, e, ?_⟩
  have hc : child (unl ls ++ [13, 10]) = (unl ls ++ [10], []) := by
    have := readBlock_unl ls [13] [] hls (by decide) (by intro c hc; simp at hc; subst hc; decide)
    rw [child_some (out := unl ls) (rest := []) (by simpa using this), child_none readBlock_nil]
    simp
  have hp : readBlock (unl ls ++ [10]) = some (unl ls, []) := by
    have := readBlock_unl ls [] [] hls (by simp) (by simp [Blank])
    simpa using this
  simp only [compress, e, List.nil_append, hc, hp]

/-- The first line is not blank if the dictionary has no `:version` or a version that is not blank. -/
theorem C97_first_line (h : Dict Str Str) (hv : ¬ Blank ((h.get? b!":version").getD b!"HTTP/1.1")) :
    ¬ Blank (Text.topLine Text.defaultFmt h) := by
  intro hb
  apply hv
  intro c hc
  apply hb
  unfold Text.topLine
  split
  · simp only [List.mem_append]
    exact Or.inr hc
  · simp only [List.mem_append]
    exact Or.inl (Or.inl (Or.inl (Or.inl hc)))

/-- A request with two values of one header. -/
def forkDemo : Dict Str Str := [(b!":method", b!"GET"), (b!":path", b!"/"), (b!":host", b!"x"),
  (b!"cookie", b!"a" ++ [0] ++ b!"b")]

example : 10 ∉ Text.topLine Text.defaultFmt forkDemo ∧ ¬ Blank ((forkDemo.get? b!":version").getD b!"HTTP/1.1") ∧
    (∀ kv ∈ forkDemo, kv.1 ∉ Text.avoidList forkDemo → 10 ∉ kv.1 ∧ 10 ∉ kv.2) ∧
    Text.formatHttp1 Text.defaultFmt forkDemo =
      b!"GET / HTTP/1.1\r\nhost: x\r\ncookie: a\r\ncookie: b\r\n" ++ b!"\r\n" := by
  refine ⟨by decide, ?_, by decide, by decide⟩
  intro h
  have := h 72 (by decide)
  simp [isWs] at this

/-- C97, whatever the headers are: compress never waits for ever, and the child reads all it is sent. -/
theorem C97_total (fs : List Str) (hfs : ∀ l ∈ fs, 10 ∉ l) (h : Dict Str Str) :
    ∃ out fs', (∀ l ∈ fs', 10 ∉ l) ∧
      compress { toChild := [], fromChild := unl fs } h = some (out, { toChild := [], fromChild := unl fs' }) := by
  obtain ⟨ls, e, hls⟩ := format_unl h
  have hn : ∀ l ∈ ls ++ [[13]], 10 ∉ l := by
    intro l hl
    rcases List.mem_append.1 hl with hl | hl
    · exact hls l hl
    · simp only [List.mem_singleton] at hl; subst hl; decide
  obtain ⟨os, h1, h2, h3⟩ := child_unl (ls ++ [[13]]) hn (by
    intro l hl
    simp only [List.getLast?_append, List.getLast?_singleton, Option.some_or, Option.some.injEq] at hl
    subst hl
    intro c hc; simp at hc; subst hc; decide)
  obtain ⟨l, hm, hbl⟩ := h3 (by simp)
  have hn' : ∀ l ∈ fs ++ os, 10 ∉ l := by
    intro l hl
    rcases List.mem_append.1 hl with hl | hl
    · exact hfs l hl
    · exact h2 l hl
  obtain ⟨pre, b, post, e', hr⟩ := readBlock_some (fs ++ os) hn' ⟨l, by simp [hm], hbl⟩
  refine ⟨unl pre, post, fun x hx => hn' x (by simp [e', hx]), ?_⟩
  rw [unl_append] at hr
  simp only [compress, e, List.nil_append, h1, hr]

example : ∀ l ∈ [b!"left\r", b!"over\r"], 10 ∉ l := by decide

/-- Without the hypotheses the two sides get out of step: a value with an empty line in it makes two
messages of one; this call returns the first of them, the next call returns the second instead of its
own. -/
theorem C97_step_false :
    ∃ h1 h2 : Dict Str Str, ∃ p,
      compress { toChild := [], fromChild := [] } h1 = some (b!"HTTP/1.1 200 ?\r\na: b\n", p) ∧
      ∃ p', compress p h2 = some (b!"c\r\n", p') ∧
      compress { toChild := [], fromChild := [] } h2 =
        some (b!"HTTP/1.1 404 ?\r\n", { toChild := [], fromChild := [] }) := by
  have f1 : Text.formatHttp1 Text.defaultFmt [(b!":status", b!"200"), (b!"a", b!"b\n\nc")] =
      unl [b!"HTTP/1.1 200 ?\r", b!"a: b"] ++ ([] ++ 10 :: (unl [b!"c\r"] ++ (b!"\r" ++ 10 :: []))) := by decide
  have f2 : Text.formatHttp1 Text.defaultFmt [(b!":status", b!"404")] =
      unl [b!"HTTP/1.1 404 ?\r"] ++ (b!"\r" ++ 10 :: []) := by decide
  have nb : ∀ l : Str, (l.all isWs = false) → ¬ Blank l := by
    intro l h hb
    rw [List.all_eq_true.2 (fun x hx => hb x hx)] at h
    simp at h
  have b13 : Blank b!"\r" := by intro c hc; simp at hc; subst hc; decide
  have b0 : Blank [] := by simp [Blank]
  have r1 := readBlock_unl [b!"HTTP/1.1 200 ?\r", b!"a: b"] [] (unl [b!"c\r"] ++ (b!"\r" ++ 10 :: []))
    (by intro l hl; simp only [List.mem_cons, List.not_mem_nil, or_false] at hl
        rcases hl with rfl | rfl
        · exact ⟨by decide, nb _ (by decide)⟩
        · exact ⟨by decide, nb _ (by decide)⟩) (by simp) b0
  have r2 := readBlock_unl [b!"c\r"] b!"\r" []
    (by intro l hl; simp only [List.mem_cons, List.not_mem_nil, or_false] at hl
        subst hl; exact ⟨by decide, nb _ (by decide)⟩) (by decide) b13
  have r3 := readBlock_unl [b!"HTTP/1.1 404 ?\r"] b!"\r" []
    (by intro l hl; simp only [List.mem_cons, List.not_mem_nil, or_false] at hl
        subst hl; exact ⟨by decide, nb _ (by decide)⟩) (by decide) b13
  have c1 := child_some r1
  have c2 := child_some r2
  have c3 := child_some r3
  have c0 := child_none readBlock_nil
  rw [c0] at c2 c3
  rw [c2] at c1
  have s1 := readBlock_unl [b!"HTTP/1.1 200 ?\r", b!"a: b"] [] (unl [b!"c\r"] ++ ([] ++ 10 :: []))
    (by intro l hl; simp only [List.mem_cons, List.not_mem_nil, or_false] at hl
        rcases hl with rfl | rfl
        · exact ⟨by decide, nb _ (by decide)⟩
        · exact ⟨by decide, nb _ (by decide)⟩) (by simp) b0
  have s2 := readBlock_unl [b!"c\r"] [] (unl [b!"HTTP/1.1 404 ?\r"] ++ [10])
    (by intro l hl; simp only [List.mem_cons, List.not_mem_nil, or_false] at hl
        subst hl; exact ⟨by decide, nb _ (by decide)⟩) (by simp) b0
  have s3 := readBlock_unl [b!"HTTP/1.1 404 ?\r"] [] []
    (by intro l hl; simp only [List.mem_cons, List.not_mem_nil, or_false] at hl
        subst hl; exact ⟨by decide, nb _ (by decide)⟩) (by simp) b0
  refine ⟨[(b!":status", b!"200"), (b!"a", b!"b\n\nc")], [(b!":status", b!"404")],
    { toChild := [], fromChild := unl [b!"c\r"] ++ [10] }, ?_,
    { toChild := [], fromChild := unl [b!"HTTP/1.1 404 ?\r"] ++ [10] }, ?_, ?_⟩
  · simp only [compress, List.nil_append, f1] at c1 s1 ⊢
    rw [c1]
    simp only [List.append_nil, List.append_assoc, List.nil_append, List.singleton_append, List.cons_append] at s1 ⊢
    rw [s1]
    rfl
  · simp only [compress, List.nil_append, f2, c3] at s2 ⊢
    simp only [List.append_nil, List.append_assoc, List.nil_append, List.singleton_append, List.cons_append] at s2 ⊢
    rw [s2]
    rfl
  · simp only [compress, List.nil_append, f2, c3] at s3 ⊢
    simp only [List.append_nil] at s3 ⊢
    rw [s3]
    rfl

/-- The child does not end when its input does: whatever is left in the pipe, after some number of
rounds every further round writes one more newline.  Only a failing `flush` stops it. -/
theorem C97_child_endless (s : Str) : ∃ k, ∀ n, childEof (k + n) s = childEof k s ++ List.replicate n 10 := by
  have h : readBlockEof [] = ([], []) := by
    rw [readBlockEof]; simp [readLineEof, readLine, stripWs, stripBy]
  induction hn : s.length using Nat.strongRecOn generalizing s with
  | ind m ih =>
    cases s with
    | nil =>
      refine ⟨0, fun n => ?_⟩
      rw [Nat.zero_add]
      induction n with
      | zero => rfl
      | succ n ihn => simp [childEof, h, List.replicate_succ] at ihn ⊢; exact ihn
    | cons c t =>
      obtain ⟨k, hk⟩ := ih _ (by rw [← hn]; exact readBlockEof_lt (by simp)) (readBlockEof (c :: t)).2 rfl
      refine ⟨k + 1, fun n => ?_⟩
      rw [show k + 1 + n = (k + n) + 1 by omega, childEof, childEof, hk n]
      simp

example : childEof 4 b!"a\n\nb" = b!"a\n\nb\n\n\n" := by
  have h0 : readBlockEof b!"\nb" = ([], b!"b") := by
    rw [readBlockEof]; simp [readLineEof, readLine, stripWs, stripBy, isWs]
  have h1 : readBlockEof b!"a\n\nb" = (b!"a\n", b!"b") := by
    rw [readBlockEof]; simp [readLineEof, readLine, stripWs, stripBy, isWs, h0]
  have h2 : readBlockEof b!"b" = (b!"b", []) := by
    rw [readBlockEof]; simp [readLineEof, readLine, stripWs, stripBy, isWs]
  have h3 : readBlockEof [] = ([], []) := by
    rw [readBlockEof]; simp [readLineEof, readLine, stripWs, stripBy]
  simp [childEof, h1, h2, h3]

end Verif.Props
