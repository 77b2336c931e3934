import Verif.Delta2.Toggles
import Verif.Delta2.Spec
import Verif.Huff.TreeLemmas
/-
Ranges denote the toggles they replace.
-/
namespace Verif.Delta2
open Verif Verif.Huff

theorem interval_self (i : Int) : interval i i = [i] := by
  simp [interval]

theorem interval_succ {a b : Int} (h : a ≤ b) : interval a (b + 1) = interval a b ++ [b + 1] := by
  have h1 : (b + 1 + 1 - a).toNat = (b + 1 - a).toNat + 1 := by omega
  simp only [interval, h1, List.range_succ, List.map_append, List.map_cons, List.map_nil]
  congr 2
  omega

/-- The toggles and ranges of a state of the loop. -/
structure RangesOk (oc new : Opcode) (st : RangeSt) (ts : List Int) (rs : List (Int × Int)) : Prop where
  ot : st.ot = ts.map (toggle oc)
  otr : st.otr = rs.map fun r => range new r.1 r.2
  lt : ∀ r ∈ rs, r.1 < r.2

theorem rangeStep_spec {oc new : Opcode} {st : RangeSt} {ts : List Int} {rs : List (Int × Int)}
    (h : RangesOk oc new st ts rs) (i : Int) :
    ∃ st' ts' rs', rangeStep new st (toggle oc i) = .ok st' ∧ RangesOk oc new st' ts' rs' ∧
      (ts' ++ rs'.flatMap fun r => interval r.1 r.2).Perm ((ts ++ rs.flatMap fun r => interval r.1 r.2) ++ [i]) ∧
      ts'.length + rs'.length + st'.collapsed = ts.length + rs.length + st.collapsed + 1 := by
  have hidx : (toggle oc i).idx = .ok i := rfl
  obtain ⟨ot, otr, col⟩ := st
  obtain ⟨h1, h2, h3⟩ := h
  simp only at h1 h2
  subst h1 h2
  have addToggle : ∃ ts' rs', RangesOk oc new ⟨ts.map (toggle oc) ++ [toggle oc i], rs.map fun r => range new r.1 r.2, col⟩
      ts' rs' ∧ (ts' ++ rs'.flatMap fun r => interval r.1 r.2).Perm ((ts ++ rs.flatMap fun r => interval r.1 r.2) ++ [i]) ∧
      ts'.length + rs'.length + col = ts.length + rs.length + col + 1 := by
    refine ⟨ts ++ [i], rs, ⟨by simp, rfl, h3⟩, ?_, by simp; omega⟩
    rw [List.append_assoc, List.append_assoc]
    exact List.Perm.append_left _ List.perm_append_comm
  have second : ∃ st' ts' rs',
      rangeElse new ⟨ts.map (toggle oc), rs.map fun r => range new r.1 r.2, col⟩ (toggle oc i) i = .ok st' ∧
      RangesOk oc new st' ts' rs' ∧
      (ts' ++ rs'.flatMap fun r => interval r.1 r.2).Perm ((ts ++ rs.flatMap fun r => interval r.1 r.2) ++ [i]) ∧
      ts'.length + rs'.length + st'.collapsed = ts.length + rs.length + col + 1 := by
    rcases List.eq_nil_or_concat ts with rfl | ⟨ts, j, rfl⟩
    · obtain ⟨ts', rs', a, b, c⟩ := addToggle
      exact ⟨_, ts', rs', rfl, a, b, c⟩
    · have hl : ((ts.concat j).map (toggle oc)).getLast? = some (toggle oc j) := by simp
      have hd : ((ts.concat j).map (toggle oc)).dropLast = ts.map (toggle oc) := by simp
      have hj : (toggle oc j).idx = .ok j := rfl
      by_cases hij : i - j = 1
      · refine ⟨⟨ts.map (toggle oc), (rs.map fun r => range new r.1 r.2) ++ [range new j i], col + 1⟩, ts, rs ++ [(j, i)],
          ?_, ⟨rfl, by simp, ?_⟩, ?_, ?_⟩
        · simp only [rangeElse, follows, hl, hj, hd, bind, Except.bind, pure, Except.pure, hij, decide_true, if_true]
          rfl
        · intro r hr
          simp only [List.mem_append, List.mem_singleton] at hr
          rcases hr with hr | rfl
          · exact h3 r hr
          · simp only; omega
        · have : i = j + 1 := by omega
          subst this
          simp only [List.flatMap_append, List.flatMap_cons, List.flatMap_nil, List.append_nil,
            interval_succ le_rfl, interval_self, List.concat_eq_append, List.append_assoc]
          refine List.Perm.append_left _ ?_
          simp only [List.cons_append, List.nil_append]
          exact List.perm_middle
        · simp; omega
      · obtain ⟨ts', rs', a, b, c⟩ := addToggle
        refine ⟨_, ts', rs', ?_, a, b, c⟩
        simp only [rangeElse, follows, hl, hj, bind, Except.bind, pure, Except.pure, hij, decide_false]
        rfl
  rcases List.eq_nil_or_concat rs with rfl | ⟨rs, r, rfl⟩
  · exact second
  · have hl : ((rs.concat r).map fun r => range new r.1 r.2).getLast? = some (range new r.1 r.2) := by simp
    have hd : ((rs.concat r).map fun r => range new r.1 r.2).dropLast = rs.map fun r => range new r.1 r.2 := by simp
    have hj : (range new r.1 r.2).idx = .ok r.2 := rfl
    by_cases hij : i - r.2 = 1
    · refine ⟨⟨ts.map (toggle oc), (rs.map fun r => range new r.1 r.2) ++ [range new r.1 i], col + 1⟩, ts,
        rs ++ [(r.1, i)], ?_, ⟨rfl, by simp, ?_⟩, ?_, ?_⟩
      · simp only [rangeStep, hidx, follows, hl, hj, hd, bind, Except.bind, pure, Except.pure, hij, decide_true, if_true]
        rfl
      · intro x hx
        have hr := h3 r (by simp)
        simp only [List.mem_append, List.mem_singleton] at hx
        rcases hx with hx | rfl
        · exact h3 x (by simp [hx])
        · simp only; omega
      · have hr := h3 r (by simp)
        have : i = r.2 + 1 := by omega
        subst this
        simp only [List.flatMap_append, List.flatMap_cons, List.flatMap_nil, List.append_nil,
          interval_succ (le_of_lt hr), List.concat_eq_append, List.append_assoc]
        exact List.Perm.refl _
      · simp; omega
    · obtain ⟨st', ts', rs', e, a, b, c⟩ := second
      refine ⟨st', ts', rs', ?_, a, b, c⟩
      rw [← e]
      simp only [rangeStep, hidx, follows, hl, hj, bind, Except.bind, pure, Except.pure, hij, decide_false]
      rfl

theorem rangeLoop_spec (oc new : Opcode) (is : List Int) : ∀ {st : RangeSt} {ts : List Int} {rs : List (Int × Int)},
    RangesOk oc new st ts rs →
    ∃ st' ts' rs', rangeLoop new (is.map (toggle oc)) st = .ok st' ∧ RangesOk oc new st' ts' rs' ∧
      (ts' ++ rs'.flatMap fun r => interval r.1 r.2).Perm ((ts ++ rs.flatMap fun r => interval r.1 r.2) ++ is) ∧
      ts'.length + rs'.length + st'.collapsed = ts.length + rs.length + st.collapsed + is.length := by
  induction is with
  | nil => intro st ts rs h; exact ⟨st, ts, rs, rfl, h, by simp, by simp⟩
  | cons i is ih =>
    intro st ts rs h
    obtain ⟨st1, ts1, rs1, e1, h1, p1, c1⟩ := rangeStep_spec h i
    obtain ⟨st2, ts2, rs2, e2, h2, p2, c2⟩ := ih h1
    refine ⟨st2, ts2, rs2, ?_, h2, ?_, ?_⟩
    · simp only [List.map_cons, rangeLoop, bind, Except.bind, e1, e2]
    · refine p2.trans ((p1.append_right is).trans ?_)
      simp
    · simp only [List.length_cons]
      omega

theorem insertBy_toggle (oc : Opcode) (i : Int) (is : List Int) :
    insertBy indexLe (toggle oc i) (is.map (toggle oc)) = (insertBy (fun a b => decide (a ≤ b)) i is).map (toggle oc) := by
  induction is with
  | nil => rfl
  | cons j is ih =>
    simp only [List.map_cons, insertBy]
    have : indexLe (toggle oc i) (toggle oc j) = decide (i ≤ j) := rfl
    rw [this]
    split
    · rfl
    · simp [ih]

theorem sortBy_toggle (oc : Opcode) (is : List Int) :
    sortBy indexLe (is.map (toggle oc)) = (sortBy (fun a b => decide (a ≤ b)) is).map (toggle oc) := by
  induction is with
  | nil => rfl
  | cons i is ih => simp only [List.map_cons, sortBy, ih, insertBy_toggle]

/-- Everything about FigureOutRanges. -/
theorem figureOutRanges_spec (oc new : Opcode) (is : List Int) : ∃ (ts : List Int) (rs : List (Int × Int)),
    figureOutRanges (is.map (toggle oc)) new = .ok (ts.map (toggle oc), rs.map fun r : Int × Int => range new r.1 r.2) ∧
    (∀ r ∈ rs, r.1 < r.2) ∧ (ts ++ rs.flatMap fun r => interval r.1 r.2).Perm is ∧ ts.length + rs.length ≤ is.length := by
  have hp := sortBy_perm (fun a b => decide (a ≤ b)) is
  obtain ⟨st, ts, rs, e, h, p, c⟩ := rangeLoop_spec oc new (sortBy (fun a b => decide (a ≤ b)) is)
    (st := ⟨[], [], 0⟩) (ts := []) (rs := []) ⟨rfl, rfl, by simp⟩
  by_cases hc : st.collapsed ≤ 2
  · refine ⟨sortBy (fun a b => decide (a ≤ b)) is, [], ?_, by simp, by simpa using hp, by simp [hp.length_eq]⟩
    simp only [figureOutRanges, sortBy_toggle, bind, Except.bind, e, pure, Except.pure, if_pos hc]
    rfl
  · refine ⟨ts, rs, ?_, h.lt, ?_, ?_⟩
    · simp only [figureOutRanges, sortBy_toggle, bind, Except.bind, e, pure, Except.pure, if_neg hc, h.ot, h.otr]
    · refine p.trans ?_
      simpa using hp
    · simp only [List.length_nil, hp.length_eq] at c
      omega

end Verif.Delta2
