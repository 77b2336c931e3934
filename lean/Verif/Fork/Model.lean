import Verif.Text.Model
/-
Model of compressor/fork/__init__.py (Processor.compress without the argument "bin") and of
sample_exec_codec.py, the child process it is meant to be used with.

The two programs are joined by two pipes.  A pipe is the list of bytes written and not yet read.
`readline` on a pipe that is still open waits for a newline; `none` stands for waiting for ever.

Simplifications: a pipe holds any number of bytes; `strip_conn_headers`, which compressor/__init__.py
does not define, is taken to return its argument; the argument "bin" (fork/__init__.py 29-32) is left
out.  Python 2: `Popen` without bufsize does not buffer.
-/
namespace Verif.Fork
open Verif

/-- `readline()` on an open pipe. -/
def readLine : Str → Option (Str × Str)
  | [] => none
  | c :: s => if c = 10 then some ([10], s) else (readLine s).map fun lr => (c :: lr.1, lr.2)

theorem readLine_lt {s l r : Str} (h : readLine s = some (l, r)) : r.length < s.length := by
  induction s generalizing l r with
  | nil => simp [readLine] at h
  | cons c s ih =>
    unfold readLine at h
    split at h
    · simp only [Option.some.injEq, Prod.mk.injEq] at h
      obtain ⟨_, rfl⟩ := h
      simp
    · simp only [Option.map_eq_some_iff, Prod.mk.injEq] at h
      obtain ⟨⟨l', r'⟩, h1, _, rfl⟩ := h
      have := ih h1
      simp only [List.length_cons]
      omega

/-- fork/__init__.py 34-39 and sample_exec_codec.py 14-18: lines up to the first that is blank,
joined. -/
def readBlock (s : Str) : Option (Str × Str) :=
  match h : readLine s with
  | none => none
  | some (line, rest) =>
    if stripWs line = [] then some ([], rest)
    else
      have := readLine_lt h
      (readBlock rest).map fun lr => (line ++ lr.1, lr.2)
  termination_by s.length

theorem readBlock_lt {s l r : Str} (h : readBlock s = some (l, r)) : r.length < s.length := by
  induction hn : s.length using Nat.strongRecOn generalizing s l r with
  | ind n ih =>
    unfold readBlock at h
    split at h
    · simp at h
    · rename_i line rest hl
      have hlt := readLine_lt hl
      split at h
      · simp only [Option.some.injEq, Prod.mk.injEq] at h
        obtain ⟨_, rfl⟩ := h
        omega
      · simp only [Option.map_eq_some_iff, Prod.mk.injEq] at h
        obtain ⟨⟨l', r'⟩, h1, _, rfl⟩ := h
        have := ih rest.length (by omega) h1 rfl
        simp only
        omega

/-- sample_exec_codec.py 7-25: the child, as long as it does not have to wait.  The result is what it
writes and what it leaves unread. -/
def child (s : Str) : Str × Str :=
  match h : readBlock s with
  | none => ([], s)
  | some (out, rest) =>
    have := readBlock_lt h
    (out ++ [10] ++ (child rest).1, (child rest).2)
  termination_by s.length

/-- The two pipes. -/
structure Pipes where
  toChild : Str
  fromChild : Str
  deriving DecidableEq, Repr

/-- fork/__init__.py 26-40, compress, without "bin". -/
def compress (p : Pipes) (h : Dict Str Str) : Option (Str × Pipes) :=
  let c := child (p.toChild ++ Text.formatHttp1 Text.defaultFmt h)
  match readBlock (p.fromChild ++ c.1) with
  | none => none
  | some (out, rest) => some (out, { toChild := c.2, fromChild := rest })

/-- `readline()` on a pipe whose other end is closed: what is left, and "" at the end. -/
def readLineEof (s : Str) : Str × Str :=
  match readLine s with
  | none => (s, [])
  | some lr => lr

/-- sample_exec_codec.py 14-18 on a closed pipe. -/
def readBlockEof (s : Str) : Str × Str :=
  let lr := readLineEof s
  if stripWs lr.1 = [] then ([], lr.2)
  else match h : readLine s with
    | none => (s, [])
    | some (line, rest) =>
      have := readLine_lt h
      (line ++ (readBlockEof rest).1, (readBlockEof rest).2)
  termination_by s.length

/-- sample_exec_codec.py 7-25 on a closed pipe: what `n` rounds of the outer loop write, as long as
`flush` does not raise. -/
def childEof : Nat → Str → Str
  | 0, _ => []
  | n + 1, s => (readBlockEof s).1 ++ [10] ++ childEof n (readBlockEof s).2

end Verif.Fork
