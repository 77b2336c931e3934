import Verif.Py
/-
Model of the letter statistics: word_freak.py in compressor/delta2 and in compressor/delta (the copies in delta_bohe and
delta2_bohe are the same as delta's), and of Stats in compressor/delta2/spdy4_codec_impl.py as far as it is not a comment.
Python 2.  `self.code` and `self.eofs` are never used.
-/
namespace Verif.Stats
open Verif

/-- word_freak.py 13-19: `character_freaks` and `length_freaks`. -/
structure Freaks where
  chars : List Nat
  lens : Dict Nat Nat
  deriving DecidableEq, Repr

/-- word_freak.py 13-19, `__init__` (delta: 11-17). -/
def Freaks.init : Freaks := ⟨List.replicate (256 + 1) 0, []⟩

/-- An operation, as far as `LookAt` sees it: the entries `key` and `val` of a dictionary, which may be absent. -/
structure Seen where
  key : Option Str
  val : Option Str
  deriving DecidableEq, Repr

/-- `l[i] += 1` on a list. -/
def bump (l : List Nat) (i : Nat) : Py (List Nat) :=
  match l[i]? with
  | some x => .ok (l.set i (x + 1))
  | none => .error .index

/-- word_freak.py 29-30: the characters of one string. -/
def lookChars (l : List Nat) : Str → Py (List Nat)
  | [] => .ok l
  | c :: cs => do
    let l ← bump l c
    lookChars l cs

/-- word_freak.py 26-30: one string. -/
def lookStr (w : Freaks) (s : Str) : Py Freaks := do
  let lens := w.lens.set s.length ((w.lens.get? s.length).getD 0 + 1)
  let l ← bump w.chars 256
  let l ← lookChars l s
  pure ⟨l, lens⟩

/-- word_freak.py 24-25: `if key in op`. -/
def lookField (w : Freaks) : Option Str → Py Freaks
  | none => .ok w
  | some s => lookStr w s

/-- word_freak.py 21-30, LookAt (delta: 19-28). -/
def lookAt (w : Freaks) : List Seen → Py Freaks
  | [] => .ok w
  | op :: ops => do
    let w ← lookField w op.key
    let w ← lookField w op.val
    lookAt w ops

/-- spdy4_codec_impl.py 422-434 (delta2), Stats.Process: a `WordFreak` for every description.  436-478 are comments. -/
def process (wf : Dict Str Freaks) (description : Str) (ops : List Seen) : Py (Dict Str Freaks) := do
  let wf := if wf.has description then wf else wf.set description Freaks.init
  match wf.get? description with
  | none => .error .key
  | some w => do
    let w ← lookAt w ops
    pure (wf.set description w)

/-- The calls of `Process` in a run, one after the other. -/
def processAll (wf : Dict Str Freaks) : List (Str × List Seen) → Py (Dict Str Freaks)
  | [] => .ok wf
  | (d, ops) :: rest => do
    let wf ← process wf d ops
    processAll wf rest

/-! ### Printing -/

/-- `chr(i)` in Python 2. -/
def chr (i : Nat) : Py Str := if i < 256 then .ok [i] else .error .value

/-- word_freak.py 33-34: the list that is sorted. -/
def chrPairs (l : List Nat) : Nat → Py (List (Str × Nat))
  | i => match l with
    | [] => .ok []
    | x :: l => do
      let c ← chr i
      let rest ← chrPairs l (i + 1)
      pure ((c, x) :: rest)

/-- Insertion behind the entries that are at least as large, so that the sort is stable. -/
def insertDesc (p : Str × Nat) : List (Str × Nat) → List (Str × Nat)
  | [] => [p]
  | q :: l => if p.2 ≤ q.2 then q :: insertDesc p l else p :: q :: l

/-- word_freak.py 32-35, SortedByFreq (delta: 30-33). -/
def sortedByFreq (w : Freaks) : Py (List (Str × Nat)) := do
  let x ← chrPairs w.chars 0
  pure (x.foldl (fun l p => insertDesc p l) [])

/-- `"%d" % n`, with enough rounds. -/
def decLoop : Nat → Nat → Str
  | 0, _ => []
  | fuel + 1, n => if n < 10 then [48 + n] else decLoop fuel (n / 10) ++ [48 + n % 10]

/-- `"%d" % n` for a number that is not negative. -/
def dec (n : Nat) : Str := decLoop (n + 1) n

/-- A hexadecimal digit, as `repr` writes it. -/
def hexDigit (d : Nat) : Nat := if d < 10 then 48 + d else 87 + d

/-- `repr(chr(i))` in Python 2, `i < 256`. -/
def reprChr (i : Nat) : Str :=
  if i = 39 then [34, 39, 34]
  else if i = 92 then [39, 92, 92, 39]
  else if i = 9 then [39, 92, 116, 39]
  else if i = 10 then [39, 92, 110, 39]
  else if i = 13 then [39, 92, 114, 39]
  else if 32 ≤ i ∧ i < 127 then [39, i, 39]
  else [39, 92, 120, hexDigit (i / 16), hexDigit (i % 16), 39]

/-- The loop over the pairs: lines of a limited width (delta: 48-53, delta2: 56-61). -/
def layout (width : Nat) : List Str → Str → List Str
  | [], line => if line ≠ b!"  " then [line] else []
  | p :: ps, line =>
    if p.length + line.length > width then line :: layout width ps (b!"  " ++ p)
    else layout width ps (line ++ p)

/-- The pairs in the text of delta: word_freak.py 42-46. -/
def pairs1 : List Nat → Nat → List Str
  | [], _ => []
  | x :: l, i =>
    (if i < 256 then b!"(" ++ reprChr i ++ b!", " ++ dec x ++ b!"),"
     else b!"(" ++ dec i ++ b!", " ++ dec x ++ b!"),") :: pairs1 l (i + 1)

/-- delta/word_freak.py 38-57, `__repr__`. -/
def repr1 (w : Freaks) : Str :=
  joinWith b!"\n" (b!"[" :: (layout 80 (pairs1 w.chars 0) b!"  " ++ [b!"]"]))

/-- Spaces in front, up to a width: `'{:>4}'.format(s)` and `"%4d" % n`. -/
def rjust (width : Nat) (s : Str) : Str := List.replicate (width - s.length) 32 ++ s

/-- delta2/word_freak.py 41-44: the largest count. -/
def maxFreq : List Nat → Nat → Nat
  | [], m => m
  | i :: l, m => maxFreq l (if i > m then i else m)

/-- delta2/word_freak.py 41: `string.digits + string.letters + string.punctuation + ' '`: the characters from space to tilde
(in the C locale). -/
def printable (i : Nat) : Bool := decide (32 ≤ i ∧ i < 127)

/-- delta2/word_freak.py 51-55: the symbol. -/
def sym2 (i : Nat) : Str := if i < 128 ∧ printable i = true then rjust 4 (reprChr i) else rjust 4 (dec i)

/-- delta2/word_freak.py 50-56: the pairs. -/
def pairs2 (freqLen : Nat) : List Nat → Nat → List Str
  | [], _ => []
  | x :: l, i => (b!"(" ++ sym2 i ++ b!", " ++ rjust freqLen (dec x) ++ b!"),") :: pairs2 freqLen l (i + 1)

/-- delta2/word_freak.py 40-65, `__repr__`. -/
def repr2 (w : Freaks) : Str :=
  joinWith b!"\n" (b!"[" ::
    (layout 60 (pairs2 (dec (maxFreq w.chars 0)).length w.chars 0) b!"  " ++ [b!"]"]))

end Verif.Stats
