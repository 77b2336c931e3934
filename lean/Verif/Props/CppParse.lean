import Verif.Cpp.ParseLemmas
/-
C94-C96: how the C++ sample program gets its header frames (harfile_translator.py, ParseHarFiles,
TrivialHTTPParse).
-/
namespace Verif.Props
open Verif Verif.Cpp

/-! ### C94: what the translator writes is read back -/

/-- C94 (partial: the responses come back with one empty frame too many).  Requests and as many
responses, no name empty, with a colon after its first character, a newline or a NUL, no value with a
newline or a NUL: however the pipe cuts the text into chunks, ParseHarFiles returns 1, the requests
as they were and the responses followed by an empty frame. -/
theorem C94_back_partial (qs rs : List (List Hdr)) (hl : qs.length = rs.length)
    (hq : ∀ f ∈ qs, ∀ kv ∈ f, Plain kv) (hr : ∀ f ∈ rs, ∀ kv ∈ f, Plain kv) :
    ∃ t, translate qs rs = .ok t ∧ ∀ chunks : List Str, chunks.flatten = t →
      parseHarFiles [] [] chunks = .ok (1, qs, rs ++ [[]]) := by
  obtain ⟨t, ht⟩ := translate_total qs rs hl
  refine ⟨t, ht, ?_⟩
  rintro chunks rfl
  have h1 := translate_text qs rs hl hq hr ht
  have h2 := (readPipe_iff chunks).2 (translate_noNul qs rs hq hr ht)
  have e := evens_interleave qs rs hl [[], []]
  have h3 : parseStream [] [] chunks.flatten = .ok (1, qs, rs ++ [[]]) := by
    rw [parseStream_eq]
    cases hi : interleave qs rs ++ [[], []] with
    | nil => simp at hi
    | cons b bs =>
      rw [hi] at h1
      have := parseLines_text h1 [] [] b bs rfl
      rw [this]
      simp only [List.nil_append]
      rw [← hi, e.1, e.2]
      simp [evens, odds, trimLast]
  unfold parseHarFiles
  rw [h2, h3]
  rfl

/-- Two pairs; a name that begins with a colon, an empty value, an empty frame, a value with a colon. -/
def demoReqs : List (List Hdr) := [[(b!":path", b!"/"), (b!"host", b!"a:80")], []]
def demoResps : List (List Hdr) := [[(b!":status", b!"200"), (b!"via", b!"")], [(b!"date", b!"x: y")]]

/-- The hypotheses hold of the demo. -/
example : demoReqs.length = demoResps.length ∧ (∀ f ∈ demoReqs, ∀ kv ∈ f, Plain kv) ∧
    (∀ f ∈ demoResps, ∀ kv ∈ f, Plain kv) := by
  simp only [demoReqs, demoResps, Plain, List.mem_cons, List.not_mem_nil, or_false, forall_eq_or_imp, forall_eq,
    IsEmpty.forall_iff, implies_true, and_true]
  simp

/-- The full claim, that the frames come back as they were, is false for every input that meets the
hypotheses, even for no frames at all. -/
theorem C94_back_false (qs rs : List (List Hdr)) (hl : qs.length = rs.length)
    (hq : ∀ f ∈ qs, ∀ kv ∈ f, Plain kv) (hr : ∀ f ∈ rs, ∀ kv ∈ f, Plain kv) (chunks : List Str)
    (hc : translate qs rs = .ok chunks.flatten) : parseHarFiles [] [] chunks ≠ .ok (1, qs, rs) := by
  obtain ⟨t, ht, h⟩ := C94_back_partial qs rs hl hq hr
  rw [hc, Except.ok.injEq] at ht
  rw [h chunks ht]
  simp

example : translate [] [] = .ok [] ∧ parseHarFiles [] [] [] = .ok (1, [], [[]]) := ⟨rfl, rfl⟩

/-- A name with a colon after its first character is cut at that colon or makes the whole text
unreadable; an empty name too. -/
theorem C94_names_false :
    (translate [[(b!"a: b", b!"c")]] [[]]).bind (fun t => parseHarFiles [] [] [t]) =
      .ok (1, [[(b!"a", b!"b: c")]], [[], []]) ∧
    (translate [[(b!"a:b", b!"c")]] [[]]).bind (fun t => parseHarFiles [] [] [t]) = .ok (0, [[]], []) ∧
    (translate [[([], b!"c")]] [[]]).bind (fun t => parseHarFiles [] [] [t]) = .ok (0, [[]], []) :=
  ⟨rfl, rfl, rfl⟩

/-! ### C95: ParseStream for every text -/

/-- C95.  If the lines of the text are blocks of headers separated by single empty lines, the first,
third, … block are the requests, without the last of them if it has no header, and the second, fourth,
… are the responses, whether they have headers or not. -/
theorem C95_blocks (text : Str) (bs : List (List Hdr)) (h : IsText (splitOn 10 text) bs) :
    parseStream [] [] text = .ok (1, trimLast (evens bs), odds bs) := by
  cases bs with
  | nil => exact absurd rfl h.ne_nil
  | cons b bs =>
    rw [parseStream_eq, parseLines_text h [] [] b bs rfl]
    simp

/-- Otherwise a line is neither empty nor a header line, and ParseStream returns 0. -/
theorem C95_total (text : Str) :
    (∃ bs, IsText (splitOn 10 text) bs) ∧ (∃ q r, parseStream [] [] text = .ok (1, q, r)) ∨
    (∃ l ∈ splitOn 10 text, l ≠ [] ∧ ¬ ∃ kv, IsLine l kv) ∧ ∃ q r, parseStream [] [] text = .ok (0, q, r) := by
  rcases text_or_bad (splitOn 10 text) with ⟨b, bs, h⟩ | h
  · exact Or.inl ⟨⟨_, h⟩, _, _, C95_blocks text _ h⟩
  · obtain ⟨q, r, e⟩ := parseLines_bad _ h [] []
    exact Or.inr ⟨h, q, r, by rw [parseStream_eq, e]⟩

/-- The header on a line is determined by the line. -/
theorem C95_line_unique (l : Str) (x y : Hdr) (hx : IsLine l x) (hy : IsLine l y) : x = y := by
  obtain ⟨e1, a1, b1⟩ := hx
  obtain ⟨e2, a2, b2⟩ := hy
  have h1 := findColon_some (v := x.2) a1 b1
  have h2 := findColon_some (v := y.2) a2 b2
  rw [← e1] at h1
  rw [← e2, h1, Option.some.injEq] at h2
  have e : x.1 ++ [58, 32] ++ x.2 = y.1 ++ [58, 32] ++ y.2 := by rw [← e1, ← e2]
  rw [List.append_assoc, List.append_assoc] at e
  have := List.append_inj e h2
  exact Prod.ext this.1 (by simpa using this.2)

example : IsText (splitOn 10 b!"a: b\nc: d\n\n\ne: f")
    [[(b!"a", b!"b"), (b!"c", b!"d")], [], [(b!"e", b!"f")]] := by
  have l1 : IsLine b!"a: b" (b!"a", b!"b") := by unfold IsLine; decide
  have l2 : IsLine b!"c: d" (b!"c", b!"d") := by unfold IsLine; decide
  have l3 : IsLine b!"e: f" (b!"e", b!"f") := by unfold IsLine; decide
  exact IsText.line l1 (IsText.line l2 (IsText.sep (IsText.sep (IsText.line l3 IsText.last))))

example : ¬ ∃ kv, IsLine b!"a:b" kv := by
  have h : parseStream [] [] b!"a:b" = .ok (0, [[]], []) := rfl
  rintro ⟨kv, hkv⟩
  have := C95_blocks b!"a:b" [[kv]] (by
    have : splitOn 10 b!"a:b" = [b!"a:b"] := by decide
    rw [this]; exact IsText.line hkv IsText.last)
  rw [h] at this
  simp at this

/-- With vectors that are not empty nothing is read, the return value is -1, and ParseHarFiles, which
only asks whether it is zero, reports success. -/
theorem C95_nonempty (q r : List (List Hdr)) (h : q ≠ [] ∨ r ≠ []) (chunks : List Str) :
    parseHarFiles q r chunks = .ok (1, q, r) := by
  unfold parseHarFiles parseStream
  rw [if_pos (by rintro ⟨rfl, rfl⟩; simp at h)]
  simp [bind, Except.bind]

example : ([[]] : List (List Hdr)) ≠ [] ∨ ([] : List (List Hdr)) ≠ [] := by decide

/-! ### C96: bytes that do not survive the pipe -/

/-- C96.  What the parser is given is what the translator wrote if and only if there is no NUL in it. -/
theorem C96_nul (chunks : List Str) : readPipe chunks = chunks.flatten ↔ 0 ∉ chunks.flatten :=
  readPipe_iff chunks

/-- A header with two values is written with a NUL between them (har files with repeated headers,
lib/harfile.py).  In one chunk everything behind the NUL is lost, the other value, the rest of the
request and the response; the return value is still 1.  Cut into other chunks the same bytes give
another result. -/
theorem C96_chunks_false :
    ∃ qs rs t, translate qs rs = .ok t ∧ qs = [[(b!"cookie", b!"a=1" ++ [0] ++ b!"b=2"), (b!"host", b!"x")]] ∧
      parseHarFiles [] [] [t] = .ok (1, [[(b!"cookie", b!"a=1")]], []) ∧
      parseHarFiles [] [] [t.take 11, t.drop 11] = .ok (1, [[(b!"cookie", b!"a=1")]], []) ∧
      parseHarFiles [] [] [t.take 12, t.drop 12] =
        .ok (1, [[(b!"cookie", b!"a=1b=2"), (b!"host", b!"x")]], [[(b!":status", b!"200")], []]) :=
  ⟨[[(b!"cookie", b!"a=1" ++ [0] ++ b!"b=2"), (b!"host", b!"x")]], [[(b!":status", b!"200")]],
    b!"cookie: a=1" ++ [0] ++ b!"b=2\nhost: x\n\n:status: 200\n\n", rfl, rfl, rfl, rfl,
    rfl⟩

end Verif.Props
