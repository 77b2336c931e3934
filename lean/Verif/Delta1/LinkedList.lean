import Verif.Py
/-
Model of the class LRU, compressor/delta/spdy4_codec_impl.py 578-611, with its pointers.  Objects are numbers; `heap` has the
attributes `p` and `n` of each.  (Of an object that was never appended the attributes do not exist; the model
gives them the value None.  `remove` is called for members only.)
-/
namespace Verif.Delta1
open Verif

/-- The attributes `p` and `n` of an entry. -/
structure Links where
  p : Option Nat := none
  n : Option Nat := none
  deriving DecidableEq, Repr

/-- spdy4_codec_impl.py 579-581. -/
structure LinkedList where
  heap : Nat → Links := fun _ => {}
  first : Option Nat := none
  last : Option Nat := none

namespace LinkedList

/-- `item.n = v`. -/
def setN (s : LinkedList) (item : Nat) (v : Option Nat) : LinkedList :=
  { s with heap := fun x => if x = item then { s.heap x with n := v } else s.heap x }

/-- `item.p = v`. -/
def setP (s : LinkedList) (item : Nat) (v : Option Nat) : LinkedList :=
  { s with heap := fun x => if x = item then { s.heap x with p := v } else s.heap x }

/-- The loop spdy4_codec_impl.py 587-588; None has no attribute `n`. -/
def walk (s : LinkedList) : Nat → Option Nat → Py (Option Nat)
  | 0, c => .ok c
  | _ + 1, none => .error .attribute
  | i + 1, some x => walk s i (s.heap x).n

/-- spdy4_codec_impl.py 583-589, __getitem__. -/
def getItem (s : LinkedList) (idx : Nat) : Py (Option Nat) :=
  if idx = 0 ∧ s.first.isSome then .ok s.first else walk s idx s.first

/-- spdy4_codec_impl.py 592-593. -/
def fixFirst (s : LinkedList) (item : Nat) : LinkedList :=
  if some item = s.first then { s with first := (s.heap item).n } else s

/-- spdy4_codec_impl.py 594-595. -/
def fixLast (s : LinkedList) (item : Nat) : LinkedList :=
  if some item = s.last then { s with last := (s.heap item).p } else s

/-- spdy4_codec_impl.py 596-597. -/
def fixPrev (s : LinkedList) (item : Nat) : LinkedList :=
  match (s.heap item).p with
  | some q => s.setN q (s.heap item).n
  | none => s

/-- spdy4_codec_impl.py 598-599. -/
def fixNext (s : LinkedList) (item : Nat) : LinkedList :=
  match (s.heap item).n with
  | some q => s.setP q (s.heap item).p
  | none => s

/-- spdy4_codec_impl.py 591-599, remove. -/
def remove (s : LinkedList) (item : Nat) : LinkedList :=
  (((s.fixFirst item).fixLast item).fixPrev item).fixNext item

/-- spdy4_codec_impl.py 601-608, append. -/
def append (s : LinkedList) (item : Nat) : LinkedList :=
  let s := match s.last with
    | some q => s.setN q (some item)
    | none => s
  let s := s.setN item none
  let s := s.setP item s.last
  let s := { s with last := some item }
  if s.first = none then { s with first := some item } else s

/-- spdy4_codec_impl.py 610-611, __nonzero__. -/
def nonzero (s : LinkedList) : Bool := s.first.isSome

/-! ### What it represents -/

/-- The list `l` of objects in order. -/
structure Rep (s : LinkedList) (l : List Nat) : Prop where
  nodup : l.Nodup
  first : s.first = l.head?
  last : s.last = l.getLast?
  links : ∀ a x b, l = a ++ x :: b → s.heap x = ⟨a.getLast?, b.head?⟩

theorem rep_empty : Rep {} [] :=
  ⟨List.nodup_nil, rfl, rfl, fun a x b h => by simp at h⟩

theorem rep_append {s : LinkedList} {l : List Nat} (h : Rep s l) {x : Nat} (hx : x ∉ l) : Rep (s.append x) (l ++ [x]) := by
  have hnd : (l ++ [x]).Nodup := by
    rw [List.nodup_append]
    exact ⟨h.nodup, by simp, fun a ha b hb => by simp only [List.mem_singleton] at hb; subst hb; exact fun he => hx (he ▸ ha)⟩
  rcases List.eq_nil_or_concat l with rfl | ⟨l', y, hl⟩
  · have hf := h.first
    have hl := h.last
    simp only [List.head?_nil, List.getLast?_nil] at hf hl
    refine ⟨hnd, by simp [append, hl, hf, setN, setP], by simp only [append, setP, setN, hl, hf]; simp, fun a z b e => ?_⟩
    rcases List.append_eq_singleton_iff.1 e.symm with ⟨rfl, he⟩ | ⟨rfl, he⟩
    · simp only [List.cons.injEq] at he
      obtain ⟨rfl, rfl⟩ := he
      simp [append, hl, hf, setN, setP]
    · simp at he
  · rw [List.concat_eq_append] at hl
    have hlast : s.last = some y := by rw [h.last, hl]; simp
    have hfirst : s.first ≠ none := by rw [h.first, hl]; simp
    have hyx : y ≠ x := fun e => hx (by rw [hl, e]; simp)
    have hheap : ∀ z, (s.append x).heap z = if z = x then ⟨some y, none⟩ else if z = y then { s.heap z with n := some x } else s.heap z := by
      intro z
      simp only [append, hlast, setN, setP, hfirst, if_false]
      by_cases h1 : z = x
      · subst h1; simp
      · by_cases h2 : z = y
        · simp [h2, hyx]
        · simp [h1, h2]
    have hf : (s.append x).first = s.first := by
      simp only [append, hlast, setN, setP]
      simp [hfirst]
    have hla : (s.append x).last = some x := by
      simp only [append, hlast, setN, setP]
      simp [hfirst]
    refine ⟨hnd, ?_, by rw [hla]; simp, fun a z b e => ?_⟩
    · rw [hf, h.first, hl]; cases l' <;> rfl
    · rw [hheap]
      rcases List.eq_nil_or_concat b with rfl | ⟨b', w, hb⟩
      · have := List.append_inj' e rfl
        obtain ⟨rfl, e2⟩ := this
        simp only [List.cons.injEq, and_true] at e2
        subst e2
        rw [if_pos rfl, hl]; simp
      · rw [List.concat_eq_append] at hb
        subst hb
        rw [show a ++ z :: (b' ++ [w]) = (a ++ z :: b') ++ [w] by simp] at e
        obtain ⟨e1, e2⟩ := List.append_inj' e rfl
        have hz : z ∈ l := by rw [e1]; simp
        rw [if_neg (fun he : z = x => hx (he ▸ hz))]
        have hlz := h.links a z b' e1
        rw [hlz]
        simp only [List.cons.injEq, and_true] at e2
        subst e2
        rcases List.eq_nil_or_concat b' with rfl | ⟨b2, w2, hb2⟩
        · have : z = y := by
            rw [hl] at e1
            have := (List.append_inj' e1 rfl).2
            simp only [List.cons.injEq, and_true] at this
            exact this.symm
          rw [if_pos this]
          simp
        · rw [List.concat_eq_append] at hb2
          subst hb2
          have hw : w2 = y := by
            rw [hl, show a ++ z :: (b2 ++ [w2]) = (a ++ z :: b2) ++ [w2] by simp] at e1
            have := (List.append_inj' e1 rfl).2
            simp only [List.cons.injEq, and_true] at this
            exact this.symm
          have hzy : z ≠ y := by
            intro hzy
            have := h.nodup
            rw [e1, List.nodup_append] at this
            have := this.2.1
            rw [List.nodup_cons] at this
            exact this.1 (by rw [hzy, ← hw]; simp)
          rw [if_neg hzy]
          cases b2 <;> simp

theorem rep_remove {s : LinkedList} {a b : List Nat} {x : Nat} (h : Rep s (a ++ x :: b)) : Rep (s.remove x) (a ++ b) := by
  have hx := h.links a x b rfl
  have hnd := h.nodup
  have hnd2 : (x :: (a ++ b)).Nodup := (List.perm_middle (l₁ := a) (l₂ := b) (a := x)).nodup_iff.1 hnd
  have hnd' : (a ++ b).Nodup := (List.nodup_cons.1 hnd2).2
  have hxm : x ∉ a ++ b := (List.nodup_cons.1 hnd2).1
  have hfst : s.first = (a ++ x :: b).head? := h.first
  have hlst : s.last = (a ++ x :: b).getLast? := h.last
  have hxa : a.getLast? ≠ some x := fun e => hxm (List.mem_append_left _ (List.mem_of_getLast? e))
  have hxb : b.head? ≠ some x := fun e => hxm (List.mem_append_right _ (List.mem_of_mem_head? e))
  have h0 : ((s.fixFirst x).fixLast x).heap = s.heap := by
    unfold fixFirst fixLast
    split <;> split <;> rfl
  have hheap : ∀ z, (s.remove x).heap z =
      ⟨if b.head? = some z then a.getLast? else (s.heap z).p, if a.getLast? = some z then b.head? else (s.heap z).n⟩ := by
    intro z
    unfold remove
    generalize (s.fixFirst x).fixLast x = t at h0
    have h1 : ∀ z, (t.fixPrev x).heap z = ⟨(s.heap z).p, if a.getLast? = some z then b.head? else (s.heap z).n⟩ := by
      intro z
      unfold fixPrev
      rw [h0, hx]
      cases ha : a.getLast? with
      | none => simp [h0]
      | some q =>
        by_cases hz : z = q
        · simp [setN, h0, hz]
        · simp [setN, h0, hz, Ne.symm hz]
    generalize t.fixPrev x = t' at h1
    have hx' : t'.heap x = ⟨a.getLast?, b.head?⟩ := by rw [h1, if_neg hxa, hx]
    unfold fixNext
    rw [hx']
    cases hb : b.head? with
    | none => simp [h1, hb]
    | some q =>
      by_cases hz : z = q
      · simp [setP, h1, hb, hz]
      · simp [setP, h1, hb, hz, Ne.symm hz]
  have hfl : (s.remove x).first = (if some x = s.first then b.head? else s.first) ∧
      (s.remove x).last = (if some x = s.last then a.getLast? else s.last) := by
    have e1 : ∀ t : LinkedList, (t.fixPrev x).first = t.first ∧ (t.fixPrev x).last = t.last := by
      intro t; unfold fixPrev; split <;> exact ⟨rfl, rfl⟩
    have e2 : ∀ t : LinkedList, (t.fixNext x).first = t.first ∧ (t.fixNext x).last = t.last := by
      intro t; unfold fixNext; split <;> exact ⟨rfl, rfl⟩
    have e3 : (s.fixFirst x).heap = s.heap := by unfold fixFirst; split <;> rfl
    have e4 : (s.fixFirst x).last = s.last := by unfold fixFirst; split <;> rfl
    have e5 : ((s.fixFirst x).fixLast x).first = (s.fixFirst x).first := by unfold fixLast; split <;> rfl
    unfold remove
    rw [(e2 _).1, (e2 _).2, (e1 _).1, (e1 _).2, e5]
    constructor
    · unfold fixFirst
      split
      · dsimp only; rw [hx]
      · rfl
    · unfold fixLast
      rw [e4, e3]
      split
      · dsimp only; rw [hx]
      · exact e4
  refine ⟨hnd', ?_, ?_, fun a' y b' e => ?_⟩
  · rw [hfl.1, hfst]
    cases a with
    | nil => simp
    | cons c a =>
      have : x ≠ c := fun e => hxm (by simp [e])
      simp [this]
  · rw [hfl.2, hlst]
    rcases List.eq_nil_or_concat b with rfl | ⟨b2, w, hb⟩
    · simp
    · rw [List.concat_eq_append] at hb
      subst hb
      have : x ≠ w := fun e => hxm (by simp [e])
      have e1 : (a ++ x :: (b2 ++ [w])).getLast? = some w := by
        rw [show a ++ x :: (b2 ++ [w]) = (a ++ x :: b2) ++ [w] by simp, List.getLast?_concat]
      have e2 : (a ++ (b2 ++ [w])).getLast? = some w := by
        rw [← List.append_assoc, List.getLast?_concat]
      rw [e1, e2, if_neg (by simpa using this)]
  · rw [hheap]
    rcases List.append_eq_append_iff.1 e with ⟨c, e1, e2⟩ | ⟨c, e1, e2⟩
    · -- y is in b
      subst e1
      have hold := h.links (a ++ x :: c) y b' (by rw [e2]; simp)
      have hya : y ∉ a := by
        intro hy
        have := hnd'
        rw [e2, List.nodup_append] at this
        exact this.2.2 y hy y (by simp) rfl
      have hyl : a.getLast? ≠ some y := fun e => hya (List.mem_of_getLast? e)
      rw [if_neg hyl, hold]
      cases c with
      | nil => rw [e2]; simp
      | cons c0 c =>
        have hc0 : c0 ≠ y := by
          intro hc
          have := hnd'
          rw [e2, List.nodup_append] at this
          have := this.2.1
          rw [hc, List.cons_append, List.nodup_cons] at this
          exact this.1 (by simp)
        rw [e2]
        simp [hc0]
    · -- y is in a, or the first of b
      cases c with
      | nil =>
        simp only [List.nil_append, List.append_nil] at e1 e2
        subst e1
        have hold := h.links (a ++ [x]) y b' (by rw [← e2]; simp)
        have hyl : a.getLast? ≠ some y := by
          intro hl
          have := hnd'
          rw [← e2, List.nodup_append] at this
          exact this.2.2 y (List.mem_of_getLast? hl) y (by simp) rfl
        rw [if_neg hyl, hold, ← e2]
        simp
      | cons c0 c =>
        simp only [List.cons_append, List.cons.injEq] at e2
        obtain ⟨rfl, e2⟩ := e2
        subst e1
        have hold := h.links a' y (c ++ x :: b) (by simp)
        have hyb : b.head? ≠ some y := by
          intro hb
          have := hnd'
          rw [List.nodup_append] at this
          exact this.2.2 y (by simp) y (List.mem_of_mem_head? hb) rfl
        rw [if_neg hyb, hold, e2]
        rcases List.eq_nil_or_concat c with rfl | ⟨c2, w, hc⟩
        · simp
        · rw [List.concat_eq_append] at hc
          subst hc
          have hyw : w ≠ y := by
            intro hw
            have := hnd'
            rw [List.nodup_append] at this
            have := this.1
            rw [List.nodup_append] at this
            have := this.2.1
            rw [List.nodup_cons] at this
            exact this.1 (by simp [hw])
          rw [if_neg]
          · cases c2 <;> simp
          · rw [show a' ++ y :: (c2 ++ [w]) = (a' ++ y :: c2) ++ [w] by simp, List.getLast?_append]
            simpa using hyw

theorem walk_rep {s : LinkedList} {l : List Nat} (h : Rep s l) (b : List Nat) : ∀ a, l = a ++ b → ∀ i,
    walk s i b.head? = if i ≤ b.length then .ok b[i]? else .error .attribute := by
  induction b with
  | nil =>
    intro a e i
    cases i with
    | zero => simp [walk]
    | succ i => simp [walk]
  | cons x b ih =>
    intro a e i
    cases i with
    | zero => simp [walk]
    | succ i =>
      have hx := h.links a x b e
      rw [List.head?_cons, walk, hx]
      dsimp only
      rw [ih (a ++ [x]) (by rw [e]; simp) i]
      simp

theorem getItem_rep {s : LinkedList} {l : List Nat} (h : Rep s l) (i : Nat) :
    s.getItem i = if i ≤ l.length then .ok l[i]? else .error .attribute := by
  unfold getItem
  split
  · rename_i hc
    obtain ⟨rfl, hs⟩ := hc
    rw [h.first]
    cases l <;> simp
  · rw [h.first]
    exact walk_rep h l [] rfl i

end LinkedList
end Verif.Delta1
