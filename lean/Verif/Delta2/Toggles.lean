import Verif.Delta2.Wire
import Verif.Huff.Model
/-
Model of MutateTogglesToTrangs, compressor/delta2/spdy4_codec_impl.py 922-950.

`sorted` compares dictionaries; for dictionaries with the same keys and the same opcode Python 2
compares the values of `index`.
-/
namespace Verif.Delta2
open Verif Verif.Huff

/-- `toggle['index']`. -/
def Op.idx (op : Op) : Py Int :=
  match op.index with
  | some i => .ok i
  | none => .error .key

/-- The order used by `sorted`, for operations of the same opcode. -/
def indexLe (a b : Op) : Bool := decide (a.index.getD 0 ≤ b.index.getD 0)

/-- State of the loop spdy4_codec_impl.py 928-940. -/
structure RangeSt where
  ot : List Op
  otr : List Op
  collapsed : Nat

/-- `l and idx - l[-1]['index'] == 1`. -/
def follows (l : List Op) (idx : Int) : Py Bool :=
  match l.getLast? with
  | none => .ok false
  | some o => do
    let last ← o.idx
    pure (decide (idx - last = 1))

/-- spdy4_codec_impl.py 933-940: the toggle does not continue the last range. -/
def rangeElse (newOpcode : Opcode) (st : RangeSt) (toggle : Op) (idx : Int) : Py RangeSt := do
  let start ← follows st.ot idx
  if start then
    match st.ot.getLast? with
    | none => .error .index
    | some t =>
      let range := { t with indexStart := t.index, index := some idx, opcode := newOpcode }
      pure { ot := st.ot.dropLast, otr := st.otr ++ [range], collapsed := st.collapsed + 1 }
  else pure { st with ot := st.ot ++ [toggle] }

/-- spdy4_codec_impl.py 928-940, one toggle. -/
def rangeStep (newOpcode : Opcode) (st : RangeSt) (toggle : Op) : Py RangeSt := do
  let idx ← toggle.idx
  let ext ← follows st.otr idx
  if ext then
    match st.otr.getLast? with
    | none => .error .index
    | some r => pure { st with otr := st.otr.dropLast ++ [{ r with index := some idx }], collapsed := st.collapsed + 1 }
  else rangeElse newOpcode st toggle idx

/-- The loop spdy4_codec_impl.py 928-940. -/
def rangeLoop (newOpcode : Opcode) : List Op → RangeSt → Py RangeSt
  | [], st => .ok st
  | t :: ts, st => do
    let st ← rangeStep newOpcode st t
    rangeLoop newOpcode ts st

/-- spdy4_codec_impl.py 923-944, FigureOutRanges. -/
def figureOutRanges (ops : List Op) (newOpcode : Opcode) : Py (List Op × List Op) := do
  let toggles := sortBy indexLe ops
  let st ← rangeLoop newOpcode toggles { ot := [], otr := [], collapsed := 0 }
  pure (if st.collapsed ≤ 2 then (sortBy indexLe ops, []) else (st.ot, st.otr))

end Verif.Delta2
