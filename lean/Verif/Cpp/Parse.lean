import Verif.PyLemmas
/-
Model of how the C++ sample program gets its header frames: compressor/delta/harfile_translator.py
(FormatIt and the printing loop of main), the reading loop of ParseHarFiles in
compressor/delta/spdy4_headers_sample.cc and compressor/delta/trivial_http_parse.h (class
TrivialHTTPParse).  The copies in delta2, delta2_bohe and delta_bohe are the same.

As in BitBucket.lean `.index` stands for an access outside a vector (undefined behaviour).
A dictionary is a list of pairs in the order `iteritems` gives them.

Simplifications: `"%s: %s"` and `print` write byte strings unchanged (the unicode strings of a HAR
file with a character outside ASCII would raise UnicodeEncodeError on a pipe); ReadHarFile, fork,
execvp and the error branch of read() are left out.
-/
namespace Verif.Cpp
open Verif

/-- harfile_translator.py 12-14, FormatIt. -/
def formatIt (frame : List Hdr) : Str :=
  frame.flatMap fun kv => kv.1 ++ b!": " ++ kv.2 ++ [10]

/-- harfile_translator.py 29-33, the loop of main.  `responses[i]` raises IndexError if there are
fewer responses than requests. -/
def translate : List (List Hdr) → List (List Hdr) → Py Str
  | [], _ => .ok []
  | _ :: _, [] => .error .index
  | q :: qs, r :: rs => do
    let rest ← translate qs rs
    .ok (formatIt q ++ [10] ++ formatIt r ++ [10] ++ rest)

/-- spdy4_headers_sample.cc 58-71: what reaches the string stream.  Each element of `chunks` is what
one read() returned, at most 255 bytes; `input << buf` writes a C string, which ends at the first NUL. -/
def readPipe (chunks : List Str) : Str :=
  chunks.flatMap fun c => c.takeWhile (· ≠ 0)

/-- `line.find_first_of(":", 1)`, trivial_http_parse.h 71 (`none` is npos). -/
def findColon (line : Str) : Option Nat :=
  (line.tail.findIdx? (· == 58)).map (· + 1)

/-- The local variables of ParseStream; `onResp` is `frames_idx == 1`.  `cur_frame` is always the last
frame of `requests` or, if `onResp`, of `responses`. -/
structure PS where
  requests : List (List Hdr)
  responses : List (List Hdr)
  onResp : Bool
  len : Nat
  deriving DecidableEq, Repr

/-- trivial_http_parse.h 41-47, GetHeaderFramePtr. -/
def getFrame (frames : List (List Hdr)) (n : Nat) : List (List Hdr) :=
  if frames.length ≤ n then frames ++ [[]] else frames

/-- `frames->back().push_back(kv)`, trivial_http_parse.h 89-90. -/
def addLast (frames : List (List Hdr)) (kv : Hdr) : Py (List (List Hdr)) :=
  match frames.getLast? with
  | none => .error .index
  | some f => .ok (frames.dropLast ++ [f ++ [kv]])

/-- trivial_http_parse.h 72-77: a blank line. -/
def switchFrame (s : PS) : PS :=
  let len := if s.onResp then s.len + 1 else s.len
  if s.onResp then { s with requests := getFrame s.requests len, onResp := false, len := len }
  else { s with responses := getFrame s.responses len, onResp := true, len := len }

/-- trivial_http_parse.h 71-90: one line; `none` is the branch that returns 0.  `line[line.size()]` is
the character NUL, so the test of line 79 never matters. -/
def parseLine (s : PS) (line : Str) : Py (Option PS) :=
  if line = [] then .ok (some (switchFrame s))
  else match findColon line with
    | none => .ok none
    | some c =>
      if c + 1 > line.length then .ok none
      else if line.getD (c + 1) 0 ≠ 32 then .ok none
      else
        let kv := (line.take c, line.drop (c + 2))
        if s.onResp then do
          let f ← addLast s.responses kv
          .ok (some { s with responses := f })
        else do
          let f ← addLast s.requests kv
          .ok (some { s with requests := f })

/-- trivial_http_parse.h 68-95: the loop over the lines and what follows it.  The result is the return
value and the two vectors. -/
def parseLines (s : PS) : List Str → Py (Int × List (List Hdr) × List (List Hdr))
  | [] =>
    match s.requests.getLast? with
    | none => .error .index
    | some f => .ok (1, (if f = [] then s.requests.dropLast else s.requests), s.responses)
  | line :: lines => do
    match ← parseLine s line with
    | none => .ok (0, s.requests, s.responses)
    | some s => parseLines s lines

/-- trivial_http_parse.h 57-96, ParseStream.  `while (istrm.good()) getline` reads the pieces between
the newline characters, and the piece behind the last one even if it is empty. -/
def parseStream (requests responses : List (List Hdr)) (text : Str) :
    Py (Int × List (List Hdr) × List (List Hdr)) :=
  if ¬ (requests = [] ∧ responses = []) then .ok (-1, requests, responses)
  else parseLines { requests := getFrame requests 0, responses := responses, onResp := false, len := 0 }
    (splitOn 10 text)

/-- spdy4_headers_sample.cc 28-77, ParseHarFiles from line 58. -/
def parseHarFiles (requests responses : List (List Hdr)) (chunks : List Str) :
    Py (Int × List (List Hdr) × List (List Hdr)) := do
  let (n, q, r) ← parseStream requests responses (readPipe chunks)
  .ok (if n = 0 then 0 else 1, q, r)

end Verif.Cpp
