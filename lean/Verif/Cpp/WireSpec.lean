import Verif.Cpp.Text
/-
What a frame of the C++ encoder looks like, as a tape of bits.
-/
namespace Verif.Cpp
open Verif Verif.Huff
open Verif.Bits.Spec (Tape bitsOf padZeros)

/-- Bytes, from the next byte boundary on. -/
def putBytes (t : Tape) (bytes : List Nat) : Tape := t.write (padZeros t.bits.length ++ bitsOf bytes)

/-- A text and the end of string, where the tape is. -/
def putText (codes : List (List Bool)) (t : Tape) (text : Str) : Tape :=
  t.write (textBits codes text ++ textBits codes [256])

/-- A clone: the index of the key, lower byte first, and the value. -/
def putClone (codes : List (List Bool)) (t : Tape) (c : Nat × Str) : Tape :=
  putText codes (putBytes t [c.1 % 256, c.1 / 256 % 256]) c.2

/-- A KVSto. -/
def putKVSto (codes : List (List Bool)) (t : Tape) (c : Str × Str) : Tape := putText codes (putText codes t c.1) c.2

/-- A block: the opcode, how many, and these. -/
def putBlock {α : Type} (opcode : Nat) (item : Tape → α → Tape) (t : Tape) (xs : List α) : Tape :=
  xs.foldl item (putBytes (putBytes t [opcode]) [xs.length])

/-- A list in parts of 255; the last one may be shorter. -/
def parts {α : Type} (xs : List α) : List (List α) :=
  if h : xs = [] then [] else xs.take 255 :: parts (xs.drop 255)
  termination_by xs.length
  decreasing_by
    have := List.length_pos_iff.2 h
    simp only [List.length_drop]
    omega

/-- Blocks of at most 255. -/
def putOps {α : Type} (opcode : Nat) (item : Tape → α → Tape) (t : Tape) (xs : List α) : Tape :=
  (parts xs).foldl (putBlock opcode item) t

/-- A frame: no length, the flags, the stream id with bit 15 set, the type, the clones and the KVStos. -/
def putFrame (codes : List (List Bool)) (t : Tape) (streamId : Nat) (ends : Bool) (clones : List (Nat × Str))
    (kvstos : List (Str × Str)) : Tape :=
  let id := streamId + 32768
  let t := putBytes t [0, 0]
  let t := putBytes t [if ends then 1 else 0]
  let t := putBytes t [id % 256, id / 256 % 256, id / 65536 % 256, id / 16777216 % 256]
  let t := putBytes t [8]
  putOps 1 (putKVSto codes) (putOps 0 (putClone codes) t clones) kvstos

end Verif.Cpp
