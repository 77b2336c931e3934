import Verif.Cpp.CodecStep
/-
The C++ encoder while there is room.
-/
namespace Verif.Cpp
open Verif

/-- `s'` has the entries of `s`, at most `n` more, with `z` bytes. -/
structure Grow (s s' : Codec) (n z : Nat) : Prop where
  heap : ∀ q e, s.heap.get? q = some e → ∃ e', s'.heap.get? q = some e'
  nums : s'.numVals ≤ s.numVals + n
  size : s'.stateSize ≤ s.stateSize + z
  maxV : s'.maxVals = s.maxVals
  maxS : s'.maxState = s.maxState

theorem Grow.refl (s : Codec) : Grow s s 0 0 := ⟨fun _ e h => ⟨e, h⟩, Nat.le_refl _, Nat.le_refl _, rfl, rfl⟩

theorem Grow.trans {s s1 s2 : Codec} {n z m y : Nat} (h1 : Grow s s1 n z) (h2 : Grow s1 s2 m y) : Grow s s2 (n + m) (z + y) where
  heap := fun q e he => by
    obtain ⟨e1, he1⟩ := h1.heap q e he
    exact h2.heap q e1 he1
  nums := by have := h1.nums; have := h2.nums; omega
  size := by have := h1.size; have := h2.size; omega
  maxV := h2.maxV.trans h1.maxV
  maxS := h2.maxS.trans h1.maxS

theorem incRef_grow {s s' : Codec} {key : Str} (h : incRef s key = .ok s') : Grow s s' 0 0 := by
  unfold incRef at h
  cases hk : keyAt s key with
  | error e => simp [hk, bind, Except.bind] at h
  | ok k =>
    simp only [hk, bind, Except.bind, Except.ok.injEq] at h
    subst h
    exact ⟨fun _ e h => ⟨e, h⟩, Nat.le_refl _, Nat.le_refl _, rfl, rfl⟩

theorem decRef_grow {s s' : Codec} {key : Str} (h : decRef s key = .ok s') : Grow s s' 0 0 := by
  unfold decRef at h
  cases hk : keyAt s key with
  | error e => simp [hk, bind, Except.bind] at h
  | ok k =>
    simp only [hk, bind, Except.bind] at h
    split at h
    · cases h
    · simp only [Except.ok.injEq] at h
      subst h
      exact ⟨fun _ e h => ⟨e, h⟩, Nat.le_refl _, Nat.le_refl _, rfl, rfl⟩

theorem findOrAddKey_grow {s s' : Codec} {key : Str} (h : findOrAddKey s key = .ok s') (h1 : s.numVals ≤ s.maxVals)
    (h2 : s.stateSize + key.length ≤ s.maxState) : Grow s s' 0 key.length := by
  unfold findOrAddKey at h
  split at h
  · simp only [Except.ok.injEq] at h
    subst h
    exact ⟨fun _ e h => ⟨e, h⟩, Nat.le_refl _, by omega, rfl, rfl⟩
  · simp only [makeSpace_room (s := s) (space := key.length) (adding := 0) ⟨by omega, h2⟩, bind, Except.bind, Except.ok.injEq] at h
    subst h
    exact ⟨fun _ e h => ⟨e, h⟩, Nat.le_refl _, Nat.le_refl _, rfl, rfl⟩

theorem heap_set_grow {s : Codec} {p : Nat} {e0 : CEntry} :
    ∀ q e, s.heap.get? q = some e → ∃ e', (s.heap.set p e0).get? q = some e' := by
  intro q e he
  rw [Dict.get?_set]
  split
  · exact ⟨_, rfl⟩
  · exact ⟨e, he⟩

theorem insertVal_grow {s s' : Codec} {key val : Str} {p : Nat} (h : insertVal s key val = .ok (p, s'))
    (h1 : s.numVals + 1 ≤ s.maxVals) (h2 : s.stateSize + val.length ≤ s.maxState) : Grow s s' 1 val.length := by
  unfold insertVal at h
  cases e1 : incRef s key with
  | error e => simp [e1, bind, Except.bind] at h
  | ok s1 =>
    have g1 := incRef_grow e1
    have := g1.nums
    have := g1.size
    have := g1.maxV
    have := g1.maxS
    have hm : makeSpace { s1 with nextPtr := s1.nextPtr + 1 } val.length 1 = .ok { s1 with nextPtr := s1.nextPtr + 1 } :=
      makeSpace_room ⟨by show s1.numVals + 1 ≤ s1.maxVals; omega, by show s1.stateSize + val.length ≤ s1.maxState; omega⟩
    simp only [e1, hm, bind, Except.bind] at h
    cases e2 : decRef { s1 with nextPtr := s1.nextPtr + 1 } key with
    | error e => simp [e2] at h
    | ok s2 =>
      have g2 := decRef_grow e2
      cases e3 : keyAt s2 key with
      | error e => simp [e2, e3] at h
      | ok k =>
        simp only [e2, e3, Except.ok.injEq, Prod.mk.injEq] at h
        obtain ⟨rfl, rfl⟩ := h
        have a1 : s2.numVals ≤ s1.numVals := g2.nums
        have a2 : s2.stateSize ≤ s1.stateSize := g2.size
        have a3 : s2.maxVals = s1.maxVals := g2.maxV
        have a4 : s2.maxState = s1.maxState := g2.maxS
        refine ⟨?_, ?_, ?_, a3.trans g1.maxV, a4.trans g1.maxS⟩
        · intro q e he
          obtain ⟨f, hf⟩ := g1.heap q e he
          obtain ⟨f2, hf2⟩ := g2.heap q f hf
          exact heap_set_grow q f2 hf2
        · show s2.numVals + 1 ≤ s.numVals + 1
          omega
        · show s2.stateSize + val.length ≤ s.stateSize + val.length
          omega

theorem addLine_grow {s s' : Codec} {g : Nat} {key val : Str} (h : addLine s g key val = .ok s')
    (h1 : s.numVals + 1 ≤ s.maxVals) (h2 : s.stateSize + val.length ≤ s.maxState) : Grow s s' 1 val.length := by
  unfold addLine at h
  cases e1 : insertVal s key val with
  | error e => simp [e1, bind, Except.bind] at h
  | ok x =>
    obtain ⟨p, s1⟩ := x
    have g1 := insertVal_grow e1 h1 h2
    simp only [e1, bind, Except.bind] at h
    split at h
    · unfold addToHead at h
      cases e2 : entryAt s1 p with
      | error e => simp [e2, bind, Except.bind] at h
      | ok e =>
        simp only [e2, bind, Except.bind] at h
        split at h
        · cases h
        · rename_i s2 hs2
          split at hs2
          · cases hs2
          · simp only [Except.ok.injEq] at hs2 h
            subst hs2
            have g2 : Grow s1 s' 0 0 := by
              subst h
              unfold showEntry
              split
              · exact ⟨heap_set_grow, Nat.le_refl _, Nat.le_refl _, rfl, rfl⟩
              · exact ⟨heap_set_grow, Nat.le_refl _, Nat.le_refl _, rfl, rfl⟩
            exact g1.trans g2
    · simp only [Except.ok.injEq] at h
      subst h
      exact g1

theorem executeKVSto_grow {s s' : Codec} {g : Nat} {key val : Str} (h : executeKVSto s g key val = .ok s')
    (h1 : s.numVals + 1 ≤ s.maxVals) (h2 : s.stateSize + (key.length + val.length) ≤ s.maxState) :
    Grow s s' 1 (key.length + val.length) := by
  unfold executeKVSto at h
  cases e1 : findOrAddKey s key with
  | error e => simp [e1, bind, Except.bind] at h
  | ok s1 =>
    simp only [e1, bind, Except.bind] at h
    have g1 := findOrAddKey_grow e1 (by omega) (by omega)
    have := g1.nums
    have := g1.size
    have := g1.maxV
    have := g1.maxS
    have g2 := addLine_grow h (by omega) (by omega)
    have := g1.trans g2
    rwa [Nat.zero_add] at this

/-- The bytes of lines. -/
def lineBytes (cs : List (Str × Str)) : Nat := (cs.map fun c => c.1.length + c.2.length).sum

theorem lineBytes_cons (c : Str × Str) (cs : List (Str × Str)) : lineBytes (c :: cs) = c.1.length + c.2.length + lineBytes cs := rfl

theorem lineBytes_append (cs ds : List (Str × Str)) : lineBytes (cs ++ ds) = lineBytes cs + lineBytes ds := by
  simp [lineBytes]

theorem cloneLoop_grow (cs : List (Str × Str)) {s s' : Codec} {g : Nat} (h : cloneLoop s g cs = .ok s')
    (h1 : s.numVals + cs.length ≤ s.maxVals) (h2 : s.stateSize + lineBytes cs ≤ s.maxState) :
    Grow s s' cs.length (lineBytes cs) := by
  induction cs generalizing s with
  | nil =>
    cases h
    exact Grow.refl _
  | cons c cs ih =>
    rw [lineBytes_cons] at h2 ⊢
    rw [List.length_cons] at h1 ⊢
    cases e1 : addLine s g c.1 c.2 with
    | error e => simp [cloneLoop, e1, bind, Except.bind] at h
    | ok s1 =>
      cases e2 : decRef s1 c.1 with
      | error e => simp [cloneLoop, e1, e2, bind, Except.bind] at h
      | ok s2 =>
        simp only [cloneLoop, e1, e2, bind, Except.bind] at h
        have g1 := (addLine_grow e1 (by omega) (by omega)).trans (decRef_grow e2)
        have := g1.nums
        have := g1.size
        have := g1.maxV
        have := g1.maxS
        have g2 := g1.trans (ih h (by omega) (by omega))
        exact ⟨g2.heap, by have := g2.nums; omega, by have := g2.size; omega, g2.maxV, g2.maxS⟩

theorem kvstoLoop_grow (cs : List (Str × Str)) {s s' : Codec} {g : Nat} (h : kvstoLoop s g cs = .ok s')
    (h1 : s.numVals + cs.length ≤ s.maxVals) (h2 : s.stateSize + lineBytes cs ≤ s.maxState) :
    Grow s s' cs.length (lineBytes cs) := by
  induction cs generalizing s with
  | nil =>
    cases h
    exact Grow.refl _
  | cons c cs ih =>
    rw [lineBytes_cons] at h2 ⊢
    rw [List.length_cons] at h1 ⊢
    cases e1 : executeKVSto s g c.1 c.2 with
    | error e => simp [kvstoLoop, e1, bind, Except.bind] at h
    | ok s1 =>
      simp only [kvstoLoop, e1, bind, Except.bind] at h
      have g1 := executeKVSto_grow e1 (by omega) (by omega)
      have := g1.nums
      have := g1.size
      have := g1.maxV
      have := g1.maxS
      have g2 := g1.trans (ih h (by omega) (by omega))
      exact ⟨g2.heap, by have := g2.nums; omega, by have := g2.size; omega, g2.maxV, g2.maxS⟩

end Verif.Cpp
