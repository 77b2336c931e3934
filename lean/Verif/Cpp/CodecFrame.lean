import Mathlib.Tactic.Tauto
import Verif.Cpp.CodecStep
/-
A frame through the C++ encoder: what each phase of ProcessFrame does to the storage.
-/
namespace Verif.Cpp
open Verif

/-- The entry cannot be evicted in this frame. -/
def Safe (s : Codec) (p : Nat) : Prop := some p ∉ ev s

/-- From `s` to `s'` lines `adds` were stored for group `g`, and perhaps entries before the pin evicted. -/
structure Prog (s s' : Codec) (g : Nat) (adds : List (Str × Str)) : Prop where
  kept : ∀ q e, s.heap.get? q = some e → Safe s q → s'.heap.get? q = some e
  safe : ∀ q, q < s.nextPtr → Safe s q → Safe s' q
  old : ∀ q e, s'.heap.get? q = some e → s.heap.get? q = some e ∨ (s.nextPtr ≤ q ∧ Safe s' q ∧ (e.key, e.val) ∈ adds)
  gold : ∀ q t, (groupOf s' g).get? q = some t →
    (groupOf s g).get? q = some t ∨ (s.nextPtr ≤ q ∧ t = s.frameCount)
  gkept : ∀ q t, (groupOf s g).get? q = some t → (∃ e, s'.heap.get? q = some e) → (groupOf s' g).get? q = some t
  gother : ∀ g', g' ≠ g → ∀ q, (groupOf s' g').get? q = if s'.heap.has q then (groupOf s g').get? q else none
  added : ∀ a ∈ adds, ∃ q e, s.nextPtr ≤ q ∧ s'.heap.get? q = some e ∧ (e.key, e.val) = a ∧ Safe s' q ∧
    (groupOf s' g).get? q = some s.frameCount
  beh : ∀ q, some q ∈ beh s' → some q ∈ beh s ∨ ∃ e, s'.heap.get? q = some e ∧ (e.key, e.val) ∈ adds
  uniq : adds.Nodup → ∀ q q' e e', s.nextPtr ≤ q → s.nextPtr ≤ q' → s'.heap.get? q = some e →
    s'.heap.get? q' = some e' → (e.key, e.val) = (e'.key, e'.val) → q = q'
  ptr : s.nextPtr ≤ s'.nextPtr
  maxS : s'.maxState = s.maxState
  maxV : s'.maxVals = s.maxVals
  pinned : s'.pinned = s.pinned
  fc : s'.frameCount = s.frameCount

theorem Prog.trans {s s' s'' : Codec} {g : Nat} {as bs : List (Str × Str)} {refs refs' refs'' : Str → Nat}
    (i : Inv s refs) (i' : Inv s' refs') (i'' : Inv s'' refs'') (h : Prog s s' g as) (h' : Prog s' s'' g bs) :
    Prog s s'' g (as ++ bs) where
  kept := fun q e he hs => h'.kept q e (h.kept q e he hs) (h.safe q (i.fresh q e he) hs)
  safe := fun q hq hs => h'.safe q (Nat.lt_of_lt_of_le hq h.ptr) (h.safe q hq hs)
  old := by
    intro q e he
    rcases h'.old q e he with h1 | ⟨h1, h2, h3⟩
    · rcases h.old q e h1 with h4 | ⟨h4, h5, h6⟩
      · exact Or.inl h4
      · exact Or.inr ⟨h4, h'.safe q (i'.fresh q e h1) h5, List.mem_append_left _ h6⟩
    · exact Or.inr ⟨Nat.le_trans h.ptr h1, h2, List.mem_append_right _ h3⟩
  gold := by
    intro q t hq
    rcases h'.gold q t hq with h1 | ⟨h1, h2⟩
    · exact h.gold q t h1
    · exact Or.inr ⟨Nat.le_trans h.ptr h1, h2.trans h.fc⟩
  gkept := by
    intro q t hq he
    obtain ⟨e, he⟩ := he
    obtain ⟨f, hf⟩ := i.group_in g hq
    have hlt := i.fresh q f hf
    rcases h'.old q e he with h1 | ⟨h1, _⟩
    · exact h'.gkept q t (h.gkept q t hq ⟨e, h1⟩) ⟨e, he⟩
    · have := h.ptr
      omega
  gother := by
    intro g' hg q
    rw [h'.gother g' hg, h.gother g' hg]
    cases h2 : s''.heap.has q with
    | false => simp
    | true =>
      simp only [if_true]
      cases h1 : s'.heap.has q with
      | true => simp
      | false =>
        -- a new entry is not in the old group
        simp only [Bool.false_eq_true, if_false]
        cases hc : (groupOf s g').get? q with
        | none => rfl
        | some t =>
          obtain ⟨f, hf⟩ := i.group_in g' hc
          have hlt := i.fresh q f hf
          obtain ⟨e, he⟩ := has_iff.1 h2
          rcases h'.old q e he with h3 | ⟨h3, _⟩
          · rw [has_iff.2 ⟨e, h3⟩] at h1
            cases h1
          · have := h.ptr
            omega
  added := by
    intro a ha
    rcases List.mem_append.1 ha with ha | ha
    · obtain ⟨q, e, h1, h2, h3, h4, h5⟩ := h.added a ha
      exact ⟨q, e, h1, h'.kept q e h2 h4, h3, h'.safe q (i'.fresh q e h2) h4,
        h'.gkept q _ h5 ⟨e, h'.kept q e h2 h4⟩⟩
    · obtain ⟨q, e, h1, h2, h3, h4, h5⟩ := h'.added a ha
      exact ⟨q, e, Nat.le_trans h.ptr h1, h2, h3, h4, by rw [h5, h.fc]⟩
  beh := by
    intro q hq
    rcases h'.beh q hq with h1 | ⟨e, h1, h2⟩
    · rcases h.beh q h1 with h3 | ⟨e, h3, h4⟩
      · exact Or.inl h3
      · -- still there, as it is in the list
        have hmem : some q ∈ s''.lru := (List.dropWhile_sublist _).subset hq
        obtain ⟨f, hf, _⟩ := (i''.lru q).1 hmem
        rcases h'.old q f hf with h5 | ⟨h5, _, h6⟩
        · rw [h3] at h5
          cases h5
          exact Or.inr ⟨e, hf, List.mem_append_left _ h4⟩
        · have := i'.fresh q e h3
          omega
    · exact Or.inr ⟨e, h1, List.mem_append_right _ h2⟩
  uniq := by
    intro hnd q q' e e' hq hq' he he' heq
    rw [List.nodup_append] at hnd
    obtain ⟨n1, n2, n3⟩ := hnd
    have hcase : ∀ q e, s.nextPtr ≤ q → s''.heap.get? q = some e →
        (s'.heap.get? q = some e ∧ (e.key, e.val) ∈ as) ∨ (s'.nextPtr ≤ q ∧ (e.key, e.val) ∈ bs) := by
      intro q e hq he
      rcases h'.old q e he with h1 | ⟨h1, _, h2⟩
      · refine Or.inl ⟨h1, ?_⟩
        rcases h.old q e h1 with h3 | ⟨_, _, h3⟩
        · have := i.fresh q e h3
          omega
        · exact h3
      · exact Or.inr ⟨h1, h2⟩
    rcases hcase q e hq he with ⟨a1, a2⟩ | ⟨a1, a2⟩ <;> rcases hcase q' e' hq' he' with ⟨b1, b2⟩ | ⟨b1, b2⟩
    · exact h.uniq n1 q q' e e' hq hq' a1 b1 heq
    · exact absurd heq (n3 _ a2 _ b2)
    · exact absurd heq.symm (n3 _ b2 _ a2)
    · exact h'.uniq n2 q q' e e' a1 b1 he he' heq
  ptr := Nat.le_trans h.ptr h'.ptr
  maxS := h'.maxS.trans h.maxS
  maxV := h'.maxV.trans h.maxV
  pinned := h'.pinned.trans h.pinned
  fc := h'.fc.trans h.fc

theorem SameBut.groupOf {s s' : Codec} (h : SameBut s s') (g : Nat) : groupOf s' g = groupOf s g := by
  unfold Cpp.groupOf
  rw [h.groups]

theorem SameBut.ev {s s' : Codec} (h : SameBut s s') : ev s' = ev s := by
  unfold Cpp.ev
  rw [h.lru]

theorem SameBut.beh {s s' : Codec} (h : SameBut s s') : beh s' = beh s := by
  unfold Cpp.beh
  rw [h.lru]

theorem Inv.gother_refl {s : Codec} {refs : Str → Nat} (i : Inv s refs) (g q : Nat) :
    (groupOf s g).get? q = if s.heap.has q then (groupOf s g).get? q else none := by
  split
  · rfl
  · rename_i hc
    cases hg : (groupOf s g).get? q with
    | none => rfl
    | some t =>
      obtain ⟨e, he⟩ := i.group_in g hg
      exact absurd (has_iff.2 ⟨e, he⟩) hc

theorem SameBut.prog {s s' : Codec} {refs : Str → Nat} (i : Inv s refs) (h : SameBut s s') (g : Nat) :
    Prog s s' g [] where
  kept := fun q e he _ => by rw [h.heap]; exact he
  safe := fun q _ hs => by unfold Safe at *; rw [h.ev]; exact hs
  old := fun q e he => Or.inl (by rw [← h.heap]; exact he)
  gold := fun q t hq => Or.inl (by rw [← h.groupOf]; exact hq)
  gkept := fun q t hq _ => by rw [h.groupOf]; exact hq
  gother := fun g' _ q => by rw [h.groupOf, h.heap]; exact i.gother_refl g' q
  added := fun a ha => by cases ha
  beh := fun q hq => Or.inl (by rw [← h.beh]; exact hq)
  uniq := fun _ q q' e e' hq hq' he he' _ => by
    rw [h.heap] at he
    have := i.fresh q e he
    omega
  ptr := Nat.le_of_eq h.nextPtr.symm
  maxS := h.maxS
  maxV := h.maxV
  pinned := h.pinned
  fc := h.fc

theorem Evict.prog {s s' : Codec} {refs : Str → Nat} {ps : List Nat} (i : Inv s refs) (h : Evict s s' ps) (g : Nat) :
    Prog s s' g [] := by
  have hgrp : ∀ g', groupOf s' g' = ps.foldl Dict.del (groupOf s g') := groupOf_map (foldl_del_nil ps) h.grp
  have hsafe : ∀ q, Safe s q → q ∉ ps ∧ Safe s' q := by
    intro q hq
    unfold Safe at *
    rw [h.ev] at hq
    refine ⟨fun hc => hq (List.mem_append_left _ (List.mem_map.2 ⟨q, hc, rfl⟩)), fun hc => hq (List.mem_append_right _ hc)⟩
  have hget : ∀ g' q, (groupOf s' g').get? q = if q ∈ ps then none else (groupOf s g').get? q := by
    intro g' q
    rw [hgrp, get?_foldl_del (i.group_wf g')]
  refine ⟨?_, ?_, ?_, ?_, ?_, ?_, ?_, ?_, ?_, ?_, h.maxS, h.maxV, h.pinned, h.fc⟩
  · intro q e he hs
    rw [h.heap, if_neg (hsafe q hs).1]
    exact he
  · exact fun q _ hs => (hsafe q hs).2
  · intro q e he
    rw [h.heap] at he
    split at he
    · cases he
    · exact Or.inl he
  · intro q t hq
    rw [hget] at hq
    split at hq
    · cases hq
    · exact Or.inl hq
  · intro q t hq he
    obtain ⟨e, he⟩ := he
    rw [h.heap] at he
    rw [hget]
    split at he
    · cases he
    · rename_i hc
      rw [if_neg hc]
      exact hq
  · intro g' _ q
    rw [hget]
    by_cases hc : q ∈ ps
    · have : s'.heap.has q = false := by simp [Dict.has, h.heap, hc]
      simp [hc, this]
    · have : s'.heap.has q = s.heap.has q := by simp [Dict.has, h.heap, hc]
      rw [if_neg hc, this]
      exact i.gother_refl g' q
  · intro a ha
    cases ha
  · intro q hq
    rw [h.beh] at hq
    exact Or.inl hq
  · intro _ q q' e e' hq hq' he he' _
    rw [h.heap] at he
    split at he
    · cases he
    · have := i.fresh q e he
      omega
  · exact Nat.le_of_eq h.nextPtr.symm

theorem takeWhile_app_of_none {l : List (Option Nat)} (r : List (Option Nat)) (h : none ∈ l) :
    (l ++ r).takeWhile (·.isSome) = l.takeWhile (·.isSome) ∧
      (l ++ r).dropWhile (·.isSome) = l.dropWhile (·.isSome) ++ r := by
  induction l with
  | nil => cases h
  | cons x l ih =>
    cases x with
    | none => simp
    | some q =>
      have : none ∈ l := by
        rcases List.mem_cons.1 h with hc | hc
        · cases hc
        · exact hc
      simp [ih this]

theorem addLine_prog {s : Codec} {refs : Str → Nat} {key : Str} {g : Nat} (val : Str) (h : Inv s refs)
    (hk : s.keymap.has key = true) (hp : s.pinned = true) (hg : 0 < g) :
    ∃ s', addLine s g key val = .ok s' ∧ Inv s' refs ∧ Prog s s' g [(key, val)] := by
  obtain ⟨s', ps, e, h', v, hgr⟩ := addLine_spec val h hk hp hg
  refine ⟨s', e, h', ?_⟩
  obtain ⟨mid, m1, m2⟩ := v.lru
  have hpn := h.pin.2 hp
  have hmid : none ∈ mid := by
    rw [m1] at hpn
    rcases List.mem_append.1 hpn with hc | hc
    · simp at hc
    · exact hc
  simp only [if_true] at m2
  have hev : ev s = ps.map some ++ mid.takeWhile (·.isSome) := by
    unfold ev
    rw [m1, List.takeWhile_append_of_pos]
    simp
  have hev' : ev s' = mid.takeWhile (·.isSome) := by
    unfold ev
    rw [m2, (takeWhile_app_of_none _ hmid).1]
  have hbeh : beh s = mid.dropWhile (·.isSome) := by
    unfold beh
    rw [m1, List.dropWhile_append_of_pos]
    simp
  have hbeh' : beh s' = mid.dropWhile (·.isSome) ++ [some s.nextPtr] := by
    unfold beh
    rw [m2, (takeWhile_app_of_none _ hmid).2]
  have hlt : ∀ q, some q ∈ s.lru → q < s.nextPtr := fun q hq => h.lt_of_lru hq
  have hps : s.nextPtr ∉ ps := by
    intro hc
    have := hlt s.nextPtr (by rw [m1]; exact List.mem_append_left _ (List.mem_map.2 ⟨_, hc, rfl⟩))
    omega
  have hsafe : ∀ q, Safe s q → q ∉ ps ∧ Safe s' q := by
    intro q hq
    unfold Safe at *
    rw [hev] at hq
    rw [hev']
    refine ⟨fun hc => hq (List.mem_append_left _ (List.mem_map.2 ⟨q, hc, rfl⟩)), fun hc => hq (List.mem_append_right _ hc)⟩
  have hnsafe : Safe s' s.nextPtr := by
    unfold Safe
    rw [hev']
    intro hc
    have := hlt s.nextPtr (by rw [m1]; exact List.mem_append_right _ ((List.takeWhile_sublist _).subset hc))
    omega
  obtain ⟨en, hen, enk, env, _⟩ := v.new
  refine ⟨?_, ?_, ?_, ?_, ?_, ?_, ?_, ?_, ?_, ?_, v.maxS, v.maxV, v.pinned, v.fc⟩
  · intro q e he hs
    have := h.fresh q e he
    rw [v.heap q (by omega), if_neg (hsafe q hs).1]
    exact he
  · exact fun q _ hs => (hsafe q hs).2
  · intro q e he
    by_cases hq : q = s.nextPtr
    · subst hq
      rw [hen] at he
      cases he
      exact Or.inr ⟨Nat.le_refl _, hnsafe, by simp [enk, env]⟩
    · rw [v.heap q hq] at he
      split at he
      · cases he
      · exact Or.inl he
  · intro q t hq
    rw [hgr] at hq
    split at hq
    · rename_i hc
      cases hq
      exact Or.inr ⟨by omega, rfl⟩
    · split at hq
      · cases hq
      · exact Or.inl hq
  · intro q t hq he
    obtain ⟨f, hf⟩ := h.group_in g hq
    have hlt' := h.fresh q f hf
    obtain ⟨e, he⟩ := he
    rw [v.heap q (by omega)] at he
    rw [hgr, if_neg (by omega)]
    split at he
    · cases he
    · rename_i hc
      rw [if_neg hc]
      exact hq
  · intro g' hg' q
    rw [hgr, if_neg (fun hc => hg' hc.1)]
    by_cases hqn : q = s.nextPtr
    · subst hqn
      rw [if_neg hps, has_iff.2 ⟨en, hen⟩]
      simp
    · by_cases hc : q ∈ ps
      · have : s'.heap.has q = false := by simp [Dict.has, v.heap q hqn, hc]
        simp [hc, this]
      · have : s'.heap.has q = s.heap.has q := by simp [Dict.has, v.heap q hqn, hc]
        rw [if_neg hc, this]
        exact h.gother_refl g' q
  · intro a ha
    rw [List.mem_singleton] at ha
    subst ha
    exact ⟨s.nextPtr, en, Nat.le_refl _, hen, by rw [enk, env], hnsafe, by rw [hgr]; simp⟩
  · intro q hq
    rw [hbeh'] at hq
    rw [hbeh]
    rcases List.mem_append.1 hq with hq | hq
    · exact Or.inl hq
    · rw [List.mem_singleton] at hq
      cases hq
      exact Or.inr ⟨en, hen, by simp [enk, env]⟩
  · have hone : ∀ q e, s.nextPtr ≤ q → s'.heap.get? q = some e → q = s.nextPtr := by
      intro q e hq he
      have := h'.fresh q e he
      rw [v.nextPtr] at this
      omega
    intro _ q q' e e' hq hq' he he' _
    rw [hone q e hq he, hone q' e' hq' he']
  · rw [v.nextPtr]; omega

/-! ### Clones and KVStos -/

/-- `refs` with one more reference for each line. -/
def bumps (refs : Str → Nat) (cs : List (Str × Str)) : Str → Nat := cs.foldr (fun c r => bump r c.1) refs

theorem bumps_bump (refs : Str → Nat) (key : Str) (cs : List (Str × Str)) :
    bumps (bump refs key) cs = bump (bumps refs cs) key := by
  induction cs with
  | nil => rfl
  | cons c cs ih =>
    change bump (bumps (bump refs key) cs) c.1 = bump (bump (bumps refs cs) c.1) key
    rw [ih]
    funext x
    simp only [bump]
    omega

theorem SameBut.has {s s' : Codec} (h : SameBut s s') (key : Str) : s'.keymap.has key = s.keymap.has key := by
  rw [Bool.eq_iff_iff, has_iff_mem, has_iff_mem, h.keys]

theorem incRefs_spec {refs : Str → Nat} (cs : List (Str × Str)) {s : Codec} (h : Inv s refs)
    (hk : ∀ c ∈ cs, s.keymap.has c.1 = true) :
    ∃ s', incRefs s cs = .ok s' ∧ Inv s' (bumps refs cs) ∧ SameBut s s' := by
  induction cs generalizing s refs with
  | nil => exact ⟨s, rfl, h, SameBut.refl s⟩
  | cons c cs ih =>
    obtain ⟨s1, e1, h1, b1⟩ := incRef_spec h (hk c (by simp))
    obtain ⟨s2, e2, h2, b2⟩ := ih h1 (fun c' hc => by rw [b1.has]; exact hk c' (by simp [hc]))
    refine ⟨s2, ?_, ?_, b1.trans b2⟩
    · simp only [incRefs, e1, bind, Except.bind, e2]
    · rw [bumps_bump] at h2
      exact h2

theorem cloneLoop_spec {refs : Str → Nat} {g : Nat} (hg : 0 < g) (cs : List (Str × Str)) {s : Codec}
    (h : Inv s (bumps refs cs)) (hp : s.pinned = true) :
    ∃ s', cloneLoop s g cs = .ok s' ∧ Inv s' refs ∧ Prog s s' g cs := by
  induction cs generalizing s with
  | nil => exact ⟨s, rfl, h, (SameBut.refl s).prog h g⟩
  | cons c cs ih =>
    have h : Inv s (bump (bumps refs cs) c.1) := h
    obtain ⟨k, hk⟩ := h.refk c.1 (by simp [bump])
    obtain ⟨s1, e1, h1, p1⟩ := addLine_prog c.2 h (has_iff.2 ⟨k, hk⟩) hp hg
    obtain ⟨s2, e2, h2, b2⟩ := decRef_spec h1
    have p2 := p1.trans h h1 h2 (b2.prog h1 g)
    obtain ⟨s3, e3, h3, p3⟩ := ih h2 (p2.pinned.trans hp)
    refine ⟨s3, ?_, h3, ?_⟩
    · simp only [cloneLoop, e1, e2, bind, Except.bind, e3]
    · exact p2.trans h h2 h3 p3

theorem executeKVSto_prog {refs : Str → Nat} {g : Nat} (hg : 0 < g) (key val : Str) {s : Codec}
    (h : Inv s refs) (hp : s.pinned = true) :
    ∃ s', executeKVSto s g key val = .ok s' ∧ Inv s' refs ∧ Prog s s' g [(key, val)] := by
  obtain ⟨s1, ps, e1, h1, v1, hk, _⟩ := findOrAddKey_spec key h (Or.inl hp)
  obtain ⟨s2, e2, h2, p2⟩ := addLine_prog val h1 hk (v1.pinned.trans hp) hg
  refine ⟨s2, ?_, h2, ?_⟩
  · simp only [executeKVSto, e1, bind, Except.bind, e2]
  · exact (v1.prog h g).trans h h1 h2 p2

theorem kvstoLoop_spec {refs : Str → Nat} {g : Nat} (hg : 0 < g) (cs : List (Str × Str)) {s : Codec}
    (h : Inv s refs) (hp : s.pinned = true) :
    ∃ s', kvstoLoop s g cs = .ok s' ∧ Inv s' refs ∧ Prog s s' g cs := by
  induction cs generalizing s with
  | nil => exact ⟨s, rfl, h, (SameBut.refl s).prog h g⟩
  | cons c cs ih =>
    obtain ⟨s1, e1, h1, p1⟩ := executeKVSto_prog hg c.1 c.2 h hp
    obtain ⟨s2, e2, h2, p2⟩ := ih h1 (p1.pinned.trans hp)
    refine ⟨s2, ?_, h2, p1.trans h h1 h2 p2⟩
    simp only [kvstoLoop, e1, bind, Except.bind, e2]

/-! ### The references held for the headers -/

def lbumps (refs : Str → Nat) (l : List ((Str × Str) × Bool)) : Str → Nat :=
  l.foldr (fun h r => if h.2 then bump r h.1.1 else r) refs

theorem lbumps_bump (refs : Str → Nat) (key : Str) (l : List ((Str × Str) × Bool)) :
    lbumps (bump refs key) l = bump (lbumps refs l) key := by
  induction l with
  | nil => rfl
  | cons c cs ih =>
    change (if c.2 then bump (lbumps (bump refs key) cs) c.1.1 else lbumps (bump refs key) cs) =
      bump (if c.2 then bump (lbumps refs cs) c.1.1 else lbumps refs cs) key
    rw [ih]
    split
    · funext x
      simp only [bump]
      omega
    · rfl

theorem lookupKeys_spec {refs : Str → Nat} (hs : List (Str × Str)) {s : Codec} (h : Inv s refs) :
    ∃ s', lookupKeys s hs = .ok (s', hs.map fun h => (h, s.keymap.has h.1)) ∧
      Inv s' (lbumps refs (hs.map fun h => (h, s.keymap.has h.1))) ∧ SameBut s s' := by
  induction hs generalizing s refs with
  | nil => exact ⟨s, rfl, h, SameBut.refl s⟩
  | cons x hs ih =>
    cases hx : s.keymap.has x.1 with
    | true =>
      obtain ⟨s1, e1, h1, b1⟩ := incRef_spec h hx
      obtain ⟨s2, e2, h2, b2⟩ := ih h1
      have hm : (hs.map fun h => (h, s1.keymap.has h.1)) = hs.map fun h => (h, s.keymap.has h.1) := by
        apply List.map_congr_left
        intro a _
        rw [b1.has]
      rw [hm] at e2 h2
      refine ⟨s2, ?_, ?_, b1.trans b2⟩
      · simp only [lookupKeys, hx, if_true, e1, bind, Except.bind, e2, List.map_cons]
      · rw [lbumps_bump] at h2
        simpa [lbumps, hx] using h2
    | false =>
      obtain ⟨s2, e2, h2, b2⟩ := ih h
      refine ⟨s2, ?_, ?_, b2⟩
      · simp only [lookupKeys, hx, Bool.false_eq_true, if_false, bind, Except.bind, e2, List.map_cons]
      · simpa [lbumps, hx] using h2

theorem releaseKeys_spec {refs : Str → Nat} (l : List ((Str × Str) × Bool)) {s : Codec} (h : Inv s (lbumps refs l)) :
    ∃ s', releaseKeys s l = .ok s' ∧ Inv s' refs ∧ SameBut s s' := by
  induction l generalizing s with
  | nil => exact ⟨s, rfl, h, SameBut.refl s⟩
  | cons x l ih =>
    obtain ⟨x, b⟩ := x
    cases b with
    | true =>
      have h : Inv s (bump (lbumps refs l) x.1) := h
      obtain ⟨s1, e1, h1, b1⟩ := decRef_spec h
      obtain ⟨s2, e2, h2, b2⟩ := ih h1
      refine ⟨s2, ?_, h2, b1.trans b2⟩
      simp only [releaseKeys, if_true, e1, bind, Except.bind, e2]
    | false =>
      obtain ⟨s2, e2, h2, b2⟩ := ih h
      refine ⟨s2, ?_, h2, b2⟩
      simpa [releaseKeys] using e2

/-! ### Toggles -/

/-- From `s` to `s'` only the list and group `g` changed, and entries were only moved behind the pin. -/
structure Tog (s s' : Codec) (g : Nat) : Prop where
  rest : s' = { s with lru := s'.lru, groups := s'.groups }
  safe : ∀ q, Safe s q → Safe s' q
  other : ∀ g', g' ≠ g → groupOf s' g' = groupOf s g'

theorem Tog.refl (s : Codec) (g : Nat) : Tog s s g := ⟨rfl, fun _ h => h, fun _ _ => rfl⟩

theorem Tog.trans {s s' s'' : Codec} {g : Nat} (h : Tog s s' g) (h' : Tog s' s'' g) : Tog s s'' g := by
  refine ⟨?_, fun q hq => h'.safe q (h.safe q hq), fun g' hg => (h'.other g' hg).trans (h.other g' hg)⟩
  have e1 := h.rest
  have e2 := h'.rest
  rw [e1] at e2
  exact e2

theorem Tog.heap {s s' : Codec} {g : Nat} (h : Tog s s' g) : s'.heap = s.heap := by rw [h.rest]
theorem Tog.keymap {s s' : Codec} {g : Nat} (h : Tog s s' g) : s'.keymap = s.keymap := by rw [h.rest]
theorem Tog.pinned {s s' : Codec} {g : Nat} (h : Tog s s' g) : s'.pinned = s.pinned := by rw [h.rest]
theorem Tog.fc {s s' : Codec} {g : Nat} (h : Tog s s' g) : s'.frameCount = s.frameCount := by rw [h.rest]

/-- Turning an entry on. -/
theorem turnOn_spec {s : Codec} {refs : Str → Nat} {g p : Nat} (h : Inv s refs) (hp : s.pinned = true)
    (he : s.heap.has p = true) :
    ∃ s', moveToHead { s with groups := s.groups.set g ((groupOf s g).set p s.frameCount) } p = .ok s' ∧
      Inv s' refs ∧ Tog s s' g ∧ Safe s' p ∧ (∀ q, some q ∈ beh s' → some q ∈ beh s ∨ q = p) ∧
      groupOf s' g = (groupOf s g).set p s.frameCount := by
  obtain ⟨e, he⟩ := has_iff.1 he
  have h1 : Inv { s with groups := s.groups.set g ((groupOf s g).set p s.frameCount) } refs := by
    refine h.setGroup ((h.group_wf g).set _ _) ?_
    intro q t hq
    rw [Dict.get?_set] at hq
    split at hq
    · rename_i hc; subst hc; exact ⟨e, he⟩
    · exact h.group_in g hq
  obtain ⟨s', e', h', m⟩ := moveToHead_spec h1 hp he
  have hgrp : ∀ g', groupOf s' g' = if g = g' then (groupOf s g).set p s.frameCount else groupOf s g' := by
    intro g'
    rw [m.rest]
    exact groupOf_set s g _ g'
  refine ⟨s', e', h', ⟨?_, ?_, ?_⟩, ?_, m.beh, by rw [hgrp, if_pos rfl]⟩
  · rw [m.rest]
  · intro q hq hc
    exact hq ((m.ev q).1 hc).1
  · intro g' hg
    rw [hgrp, if_neg (fun hc => hg hc.symm)]
  · intro hc
    exact ((m.ev p).1 hc).2 rfl

/-- Turning an entry off. -/
theorem turnOff_spec {s : Codec} {refs : Str → Nat} {g p : Nat} (h : Inv s refs) :
    Inv { s with groups := s.groups.set g ((groupOf s g).del p) } refs ∧
      Tog s { s with groups := s.groups.set g ((groupOf s g).del p) } g ∧
      groupOf { s with groups := s.groups.set g ((groupOf s g).del p) } g = (groupOf s g).del p := by
  refine ⟨?_, ⟨rfl, fun q hq => hq, ?_⟩, ?_⟩
  · refine h.setGroup ((h.group_wf g).del _) ?_
    intro q t hq
    rw [Dict.get?_del (h.group_wf g)] at hq
    split at hq
    · cases hq
    · exact h.group_in g hq
  · intro g' hg
    rw [groupOf_set, if_neg (fun hc => hg hc.symm)]
  · rw [groupOf_set, if_pos rfl]

/-- Toggles of live entries never fail; what is turned on is safe afterwards. -/
theorem toggles_spec {refs : Str → Nat} {g : Nat} (ps : List Nat) {s : Codec} (h : Inv s refs) (hp : s.pinned = true)
    (hl : ∀ p ∈ ps, s.heap.has p = true) :
    ∃ s', toggles s g ps = .ok s' ∧ Inv s' refs ∧ Tog s s' g ∧
      (∀ p ∈ ps, (groupOf s g).has p = false → Safe s' p) ∧
      (∀ q t, (groupOf s' g).get? q = some t → t = s.frameCount ∨ (groupOf s g).get? q = some t) ∧
      (∀ q, q ∉ ps → (groupOf s' g).get? q = (groupOf s g).get? q) ∧
      (∀ q, some q ∈ beh s' → some q ∈ beh s ∨ q ∈ ps ∧ ((groupOf s g).has q = false ∨ ¬ ps.Nodup)) ∧
      (ps.Nodup → (∀ p ∈ ps, (groupOf s g).has p = false) →
        ∀ q, (groupOf s' g).get? q = if q ∈ ps then some s.frameCount else (groupOf s g).get? q) ∧
      (ps.Nodup → (∀ p ∈ ps, (groupOf s g).has p = true) →
        ∀ q, (groupOf s' g).get? q = if q ∈ ps then none else (groupOf s g).get? q) := by
  induction ps generalizing s with
  | nil => exact ⟨s, rfl, h, Tog.refl s g, by simp, fun q t hq => Or.inr hq, fun _ _ => rfl, fun q hq => Or.inl hq, by simp, by simp⟩
  | cons p ps ih =>
    cases hh : (groupOf s g).has p with
    | true =>
      obtain ⟨h1, t1, g1⟩ := turnOff_spec (g := g) (p := p) h
      obtain ⟨s2, e2, h2, t2, a2, w2, x2, b2, c2, d2⟩ := ih h1 hp (fun q hq => hl q (by simp [hq]))
      rw [g1] at a2 w2 x2 b2 c2 d2
      have hdel : ∀ q, ((groupOf s g).del p).has q = if p = q then false else (groupOf s g).has q := by
        intro q
        unfold Dict.has
        rw [Dict.get?_del (h.group_wf g)]
        split <;> rfl
      refine ⟨s2, ?_, h2, t1.trans t2, ?_, ?_, ?_, ?_, ?_, ?_⟩
      · simp only [toggles, executeToggle, hh, if_true, bind, Except.bind, e2]
      · intro q hq hn
        have hpq : p ≠ q := by rintro rfl; rw [hh] at hn; cases hn
        rcases List.mem_cons.1 hq with hc | hc
        · exact absurd hc.symm hpq
        · exact a2 q hc (by rw [hdel, if_neg hpq]; exact hn)
      · intro q t hq
        rcases w2 q t hq with hc | hc
        · exact Or.inl hc
        · rw [Dict.get?_del (h.group_wf g)] at hc
          split at hc
          · cases hc
          · exact Or.inr hc
      · intro q hq
        rw [List.mem_cons, not_or] at hq
        rw [x2 q hq.2, Dict.get?_del (h.group_wf g), if_neg (fun hc => hq.1 hc.symm)]
      · intro q hq
        rcases b2 q hq with hc | ⟨hc, hd⟩
        · exact Or.inl hc
        · refine Or.inr ⟨List.mem_cons_of_mem _ hc, ?_⟩
          by_cases hpq : p = q
          · subst hpq
            exact Or.inr (fun hnd => (List.nodup_cons.1 hnd).1 hc)
          · rcases hd with hd | hd
            · rw [hdel, if_neg hpq] at hd
              exact Or.inl hd
            · exact Or.inr (fun hnd => hd (List.nodup_cons.1 hnd).2)
      · intro _ hall
        have := hall p (by simp)
        rw [hh] at this
        cases this
      · intro hnd hall q
        obtain ⟨hnp, hnd'⟩ := List.nodup_cons.1 hnd
        rw [d2 hnd' (by
          intro q hq
          rw [hdel, if_neg (show ¬ p = q from fun hc => hnp (by rw [hc]; exact hq))]
          exact hall q (by simp [hq])) q, Dict.get?_del (h.group_wf g)]
        by_cases e1 : q = p
        · subst e1; simp
        · have : ¬ p = q := fun hc => e1 hc.symm
          simp [e1, this]
    | false =>
      obtain ⟨s1, e1, h1, t1, sf, bh, g1⟩ := turnOn_spec (g := g) h hp (hl p (by simp))
      obtain ⟨s2, e2, h2, t2, a2, w2, x2, b2, c2, d2⟩ := ih h1 (t1.pinned.trans hp)
        (fun q hq => by rw [t1.heap]; exact hl q (by simp [hq]))
      rw [g1] at a2 w2 x2 b2 c2 d2
      have hset : ∀ q, ((groupOf s g).set p s.frameCount).has q = if p = q then true else (groupOf s g).has q := by
        intro q
        unfold Dict.has
        rw [Dict.get?_set]
        split <;> rfl
      refine ⟨s2, ?_, h2, t1.trans t2, ?_, ?_, ?_, ?_, ?_, ?_⟩
      · simp only [toggles, executeToggle, hh, Bool.false_eq_true, if_false, bind, Except.bind, e1, e2]
      · intro q hq hn
        by_cases hpq : p = q
        · subst hpq
          exact t2.safe p sf
        · rcases List.mem_cons.1 hq with hc | hc
          · exact absurd hc.symm hpq
          · exact a2 q hc (by rw [hset, if_neg hpq]; exact hn)
      · intro q t hq
        rcases w2 q t hq with hc | hc
        · exact Or.inl (hc.trans t1.fc)
        · rw [Dict.get?_set] at hc
          split at hc
          · exact Or.inl (Option.some.inj hc).symm
          · exact Or.inr hc
      · intro q hq
        rw [List.mem_cons, not_or] at hq
        rw [x2 q hq.2, Dict.get?_set, if_neg (fun hc => hq.1 hc.symm)]
      · intro q hq
        rcases b2 q hq with hc | ⟨hc, hd⟩
        · rcases bh q hc with hc | rfl
          · exact Or.inl hc
          · exact Or.inr ⟨by simp, Or.inl hh⟩
        · refine Or.inr ⟨List.mem_cons_of_mem _ hc, ?_⟩
          by_cases hpq : p = q
          · subst hpq
            exact Or.inl hh
          · rcases hd with hd | hd
            · rw [hset, if_neg hpq] at hd
              exact Or.inl hd
            · exact Or.inr (fun hnd => hd (List.nodup_cons.1 hnd).2)
      · intro hnd hall q
        obtain ⟨hnp, hnd'⟩ := List.nodup_cons.1 hnd
        rw [c2 hnd' (by
          intro q hq
          rw [hset, if_neg (show ¬ p = q from fun hc => hnp (by rw [hc]; exact hq))]
          exact hall q (by simp [hq])) q, Dict.get?_set, t1.fc]
        by_cases e1 : q = p
        · subst e1; simp
        · have : ¬ p = q := fun hc => e1 hc.symm
          simp [e1, this]
      · intro _ hall
        have := hall p (by simp)
        rw [hh] at this
        cases this

/-! ### Looking at the headers -/

/-- The pair an entry holds. -/
def CEntry.pair (e : CEntry) : Str × Str := (e.key, e.val)

/-- What holds after the lines `L` were looked at, from `s0`. -/
structure PInv (s0 s : Codec) (g : Nat) (L : List (Str × Str)) (i : CInstrs) (refs : Str → Nat) : Prop where
  inv : Inv s refs
  tog : Tog s0 s g
  gsame : ∀ q, (groupOf s g).has q = (groupOf s0 g).has q
  gold : ∀ q t, (groupOf s g).get? q = some t → t ≠ s.frameCount → (groupOf s0 g).get? q = some t
  touched : ∀ q, (groupOf s g).get? q = some s.frameCount → Safe s q ∧ ∃ e, s.heap.get? q = some e ∧ e.pair ∈ L
  ons : ∀ p ∈ i.ons, (groupOf s g).has p = false ∧ ∃ e, s.heap.get? p = some e ∧ e.pair ∈ L
  offs : i.offs = []
  clones : ∀ c ∈ i.clones, c ∈ L ∧ s.keymap.has c.1 = true
  kvstos : ∀ c ∈ i.kvstos, c ∈ L
  cover : ∀ kv ∈ L, (∃ p e, (groupOf s g).get? p = some s.frameCount ∧ s.heap.get? p = some e ∧ e.pair = kv) ∨
    (∃ p e, p ∈ i.ons ∧ s.heap.get? p = some e ∧ e.pair = kv) ∨ kv ∈ i.clones ∨ kv ∈ i.kvstos
  beh : ∀ q, some q ∈ beh s → ∃ e, s.heap.get? q = some e ∧ e.pair ∈ L
  nodup : L.Nodup → i.ons.Nodup
  first : ∀ q e k, ((groupOf s g).get? q = some s.frameCount ∨ q ∈ i.ons) → s.heap.get? q = some e →
    s.keymap.get? e.key = some k → k.vals.find? (fun v => v.1 = e.val) = some (e.val, q)
  new : ∀ c, c ∈ i.clones ++ i.kvstos → ∀ q e, s.heap.get? q = some e → e.pair ≠ c
  nodup2 : L.Nodup → (i.clones ++ i.kvstos).Nodup

theorem PInv.weaken {s0 s : Codec} {g : Nat} {L : List (Str × Str)} {i i' : CInstrs} {refs : Str → Nat} {kv : Str × Str}
    (h : PInv s0 s g L i refs) (h1 : i'.ons = i.ons) (h2 : i'.offs = i.offs)
    (h3 : ∀ c, c ∈ i'.clones ↔ c ∈ i.clones ∨ (c = kv ∧ s.keymap.has kv.1 = true ∧ c ∈ i'.clones))
    (h4 : ∀ c, c ∈ i'.kvstos ↔ c ∈ i.kvstos ∨ (c = kv ∧ c ∈ i'.kvstos))
    (h5 : kv ∈ i'.clones ∨ kv ∈ i'.kvstos) (h6 : (i'.clones ++ i'.kvstos).Perm (kv :: (i.clones ++ i.kvstos)))
    (h7 : ∀ q e, s.heap.get? q = some e → e.pair ≠ kv) : PInv s0 s g (L ++ [kv]) i' refs where
  inv := h.inv
  tog := h.tog
  gsame := h.gsame
  gold := h.gold
  touched := fun q hq => by
    obtain ⟨a, e, he, hm⟩ := h.touched q hq
    exact ⟨a, e, he, List.mem_append_left _ hm⟩
  ons := fun p hp => by
    rw [h1] at hp
    obtain ⟨a, e, he, hm⟩ := h.ons p hp
    exact ⟨a, e, he, List.mem_append_left _ hm⟩
  offs := h2.trans h.offs
  clones := fun c hc => by
    rcases (h3 c).1 hc with hc | ⟨rfl, hk, _⟩
    · exact ⟨List.mem_append_left _ (h.clones c hc).1, (h.clones c hc).2⟩
    · exact ⟨by simp, hk⟩
  kvstos := fun c hc => by
    rcases (h4 c).1 hc with hc | ⟨rfl, _⟩
    · exact List.mem_append_left _ (h.kvstos c hc)
    · simp
  cover := fun x hx => by
    rcases List.mem_append.1 hx with hx | hx
    · rcases h.cover x hx with hc | ⟨p, e, hp, hc⟩ | hc | hc
      · exact Or.inl hc
      · exact Or.inr (Or.inl ⟨p, e, by rw [h1]; exact hp, hc⟩)
      · exact Or.inr (Or.inr (Or.inl ((h3 x).2 (Or.inl hc))))
      · exact Or.inr (Or.inr (Or.inr ((h4 x).2 (Or.inl hc))))
    · rw [List.mem_singleton] at hx
      subst hx
      exact Or.inr (Or.inr h5)
  beh := fun q hq => by
    obtain ⟨e, he, hm⟩ := h.beh q hq
    exact ⟨e, he, List.mem_append_left _ hm⟩
  nodup := fun hnd => by
    rw [h1]
    exact h.nodup (List.nodup_append.1 hnd).1
  first := by rw [h1]; exact h.first
  new := fun c hc q e he => by
    rcases List.mem_cons.1 (h6.mem_iff.1 hc) with rfl | hc
    · exact h7 q e he
    · exact h.new c hc q e he
  nodup2 := fun hnd => by
    rw [h6.nodup_iff, List.nodup_cons]
    obtain ⟨n1, _, n3⟩ := List.nodup_append.1 hnd
    refine ⟨fun hc => ?_, h.nodup2 n1⟩
    have : kv ∈ L := by
      rcases List.mem_append.1 hc with hc | hc
      · exact (h.clones kv hc).1
      · exact h.kvstos kv hc
    exact n3 kv this kv (by simp) rfl

/-- One line. -/
theorem processKV_spec {s0 s : Codec} {g : Nat} {L : List (Str × Str)} {i : CInstrs} {refs : Str → Nat} {key val : Str}
    {has : Bool} (h : PInv s0 s g L i refs) (hp : s.pinned = true) (hh : has = true → s.keymap.has key = true) :
    ∃ s' i', processKV s g has key val i = .ok (s', i') ∧ PInv s0 s' g (L ++ [(key, val)]) i' refs := by
  unfold processKV
  cases hk : s.keymap.has key with
  | false =>
    have : has = false := by
      cases hc : has with
      | false => rfl
      | true => rw [hh hc] at hk; cases hk
    subst this
    refine ⟨s, { i with kvstos := i.kvstos ++ [(key, val)] }, by simp, ?_⟩
    exact h.weaken rfl rfl (fun c => ⟨Or.inl, fun hc => hc.elim id (fun hc => hc.2.2)⟩)
      (fun c => by simp only [List.mem_append, List.mem_singleton]; tauto) (Or.inr (by simp))
      (by
        rw [← List.append_assoc]
        exact List.perm_append_comm)
      (fun q e he hc => by
        obtain ⟨k, hk', _⟩ := h.inv.up q e he
        have : e.key = key := congrArg Prod.fst hc
        rw [this] at hk'
        rw [has_iff.2 ⟨k, hk'⟩] at hk
        cases hk)
  | true =>
    obtain ⟨k, hk'⟩ := has_iff.1 hk
    have hkat : keyAt s key = .ok k := by simp [keyAt, hk']
    simp only [Bool.or_true, if_true, hkat, bind, Except.bind]
    cases hf : k.vals.find? (fun v => decide (v.1 = val)) with
    | none =>
      refine ⟨s, { i with clones := i.clones ++ [(key, val)] }, rfl, ?_⟩
      exact h.weaken rfl rfl (fun c => by simp only [List.mem_append, List.mem_singleton, hk]; tauto) (fun c => ⟨Or.inl, fun hc => hc.elim id (fun hc => hc.2)⟩)
        (Or.inl (by simp))
        (by
          simp only [List.append_assoc, List.singleton_append]
          exact List.perm_middle)
        (fun q e he hc => by
          obtain ⟨k0, hk0, hm⟩ := h.inv.up q e he
          have e1 : e.key = key := congrArg Prod.fst hc
          have e2 : e.val = val := congrArg Prod.snd hc
          rw [e1, hk'] at hk0
          cases hk0
          have := List.find?_eq_none.1 hf _ hm
          simp [e2] at this)
    | some x =>
      obtain ⟨v, p⟩ := x
      have hm := List.mem_of_find?_eq_some hf
      have hv := List.find?_some hf
      simp only [decide_eq_true_eq] at hv
      subst hv
      obtain ⟨e, he, ek, ev'⟩ := h.inv.down key k hk' v p hm
      have hpair : e.pair = (key, v) := by simp [CEntry.pair, ek, ev']
      cases hg : (groupOf s g).has p with
      | true =>
        obtain ⟨s', e', h', t, sf, bh, gr⟩ := turnOn_spec (g := g) h.inv hp (has_iff.2 ⟨e, he⟩)
        have hget : ∀ q, (groupOf s' g).get? q = if p = q then some s.frameCount else (groupOf s g).get? q := by
          intro q
          rw [gr, Dict.get?_set]
        refine ⟨s', i, by simp only [hg, if_true, e'], ?_⟩
        constructor
        · exact h'
        · exact h.tog.trans t
        · intro q
          rw [← h.gsame q]
          unfold Dict.has
          rw [hget]
          split
          · rename_i hc
            subst hc
            have : ((groupOf s g).get? p).isSome = true := hg
            rw [this]
            rfl
          · rfl
        · intro q t' hq hne
          rw [hget] at hq
          rw [t.fc] at hne
          split at hq
          · exact absurd (Option.some.inj hq).symm hne
          · exact h.gold q t' hq hne
        · intro q hq
          rw [hget, t.fc] at hq
          rw [t.heap]
          by_cases hc : p = q
          · subst hc
            exact ⟨sf, e, he, by rw [hpair]; simp⟩
          · rw [if_neg hc] at hq
            obtain ⟨a, f, hf, hm⟩ := h.touched q hq
            exact ⟨t.safe q a, f, hf, List.mem_append_left _ hm⟩
        · intro q hq
          obtain ⟨a, f, hf, hm⟩ := h.ons q hq
          refine ⟨?_, f, by rw [t.heap]; exact hf, List.mem_append_left _ hm⟩
          unfold Dict.has
          rw [hget, if_neg]
          · exact a
          · rintro rfl
            rw [hg] at a
            cases a
        · exact h.offs
        · intro c hc
          rw [t.keymap]
          exact ⟨List.mem_append_left _ (h.clones c hc).1, (h.clones c hc).2⟩
        · exact fun c hc => List.mem_append_left _ (h.kvstos c hc)
        · intro x hx
          rw [t.heap, t.fc]
          rcases List.mem_append.1 hx with hx | hx
          · rcases h.cover x hx with ⟨q, f, hq, hc⟩ | hc | hc
            · refine Or.inl ⟨q, f, ?_, hc⟩
              rw [hget]
              split
              · rfl
              · exact hq
            · exact Or.inr (Or.inl hc)
            · exact Or.inr (Or.inr hc)
          · rw [List.mem_singleton] at hx
            subst hx
            exact Or.inl ⟨p, e, by rw [hget, if_pos rfl], he, hpair⟩
        · intro q hq
          rw [t.heap]
          rcases bh q hq with hc | rfl
          · obtain ⟨f, hf, hm⟩ := h.beh q hc
            exact ⟨f, hf, List.mem_append_left _ hm⟩
          · exact ⟨e, he, by rw [hpair]; simp⟩
        · exact fun hnd => h.nodup (List.nodup_append.1 hnd).1
        · intro q f k0 hq hf0 hk0
          rw [t.heap] at hf0
          rw [t.keymap] at hk0
          rw [hget, t.fc] at hq
          by_cases hc : p = q
          · subst hc
            rw [he] at hf0
            cases hf0
            rw [ek, hk'] at hk0
            cases hk0
            rw [ev']
            exact hf
          · rw [if_neg hc] at hq
            exact h.first q f k0 hq hf0 hk0
        · intro c hc q f hf0
          rw [t.heap] at hf0
          exact h.new c hc q f hf0
        · exact fun hnd => h.nodup2 (List.nodup_append.1 hnd).1
      | false =>
        refine ⟨s, { i with ons := i.ons ++ [p] }, by simp [hg], ?_⟩
        constructor
        · exact h.inv
        · exact h.tog
        · exact h.gsame
        · exact h.gold
        · intro q hq
          obtain ⟨a, f, hf, hm⟩ := h.touched q hq
          exact ⟨a, f, hf, List.mem_append_left _ hm⟩
        · intro q hq
          rcases List.mem_append.1 hq with hq | hq
          · obtain ⟨a, f, hf, hm⟩ := h.ons q hq
            exact ⟨a, f, hf, List.mem_append_left _ hm⟩
          · rw [List.mem_singleton] at hq
            subst hq
            exact ⟨hg, e, he, by rw [hpair]; simp⟩
        · exact h.offs
        · exact fun c hc => ⟨List.mem_append_left _ (h.clones c hc).1, (h.clones c hc).2⟩
        · exact fun c hc => List.mem_append_left _ (h.kvstos c hc)
        · intro x hx
          rcases List.mem_append.1 hx with hx | hx
          · rcases h.cover x hx with hc | ⟨q, f, hq, hc⟩ | hc
            · exact Or.inl hc
            · exact Or.inr (Or.inl ⟨q, f, List.mem_append_left _ hq, hc⟩)
            · exact Or.inr (Or.inr hc)
          · rw [List.mem_singleton] at hx
            subst hx
            exact Or.inr (Or.inl ⟨p, e, by simp, he, hpair⟩)
        · intro q hq
          obtain ⟨f, hf, hm⟩ := h.beh q hq
          exact ⟨f, hf, List.mem_append_left _ hm⟩
        · intro hnd
          rw [List.nodup_append] at hnd
          obtain ⟨n1, _, n3⟩ := hnd
          rw [List.nodup_append]
          refine ⟨h.nodup n1, by simp, ?_⟩
          intro a ha b hb
          rw [List.mem_singleton] at hb
          subst hb
          rintro rfl
          obtain ⟨_, f, hf, hm⟩ := h.ons a ha
          rw [he] at hf
          cases hf
          exact n3 _ hm _ (by rw [List.mem_singleton]) hpair
        · intro q f k0 hq hf0 hk0
          by_cases hc : q = p
          · subst hc
            rw [he] at hf0
            cases hf0
            rw [ek, hk'] at hk0
            cases hk0
            rw [ev']
            exact hf
          · refine h.first q f k0 (hq.imp id ?_) hf0 hk0
            intro hm
            rcases List.mem_append.1 hm with hm | hm
            · exact hm
            · exact absurd (List.mem_singleton.1 hm) hc
        · exact h.new
        · exact fun hnd => h.nodup2 (List.nodup_append.1 hnd).1

theorem processLines_spec {s0 : Codec} {g : Nat} {refs : Str → Nat} {has : Bool} {key : Str} (kvs : List (Str × Str))
    (hkey : ∀ kv ∈ kvs, kv.1 = key) {s : Codec} {L : List (Str × Str)} {i : CInstrs} (h : PInv s0 s g L i refs)
    (hp : s0.pinned = true) (hh : has = true → s0.keymap.has key = true) :
    ∃ s' i', processLines s g has kvs i = .ok (s', i') ∧ PInv s0 s' g (L ++ kvs) i' refs := by
  induction kvs generalizing s L i with
  | nil => exact ⟨s, i, rfl, by simpa using h⟩
  | cons kv kvs ih =>
    have hk : kv.1 = key := hkey kv (by simp)
    obtain ⟨s1, i1, e1, h1⟩ := processKV_spec (key := kv.1) (val := kv.2) (has := has) h (h.tog.pinned.trans hp)
      (fun hc => by rw [h.tog.keymap, hk]; exact hh hc)
    obtain ⟨s2, i2, e2, h2⟩ := ih (fun kv' h' => hkey kv' (by simp [h'])) h1
    refine ⟨s2, i2, ?_, by simpa using h2⟩
    simp only [processLines, e1, bind, Except.bind, e2]

/-- The crumbs of a cookie: the parts between semicolons, without the spaces after a semicolon, and without the
last one if it is empty. -/
def crumbsOf : List Str → List Str
  | [] => []
  | x :: xs =>
    let l := x :: xs.map fun y => y.dropWhile (· = 32)
    if l.getLast? = some [] then l.dropLast else l

/-- The lines of a header. -/
def lineList (kv : Str × Str) : List (Str × Str) :=
  if kv.1 = b!"cookie" ∧ 59 ∈ kv.2 then (crumbsOf (splitOn 59 kv.2)).map fun c => (kv.1, c) else [kv]

theorem splitOn_dropSpaces (r : Str) : splitOn 59 (r.dropWhile (· = 32)) =
    match splitOn 59 r with
    | [] => []
    | y :: ys => y.dropWhile (· = 32) :: ys := by
  induction r with
  | nil => rfl
  | cons x r ih =>
    by_cases hx : x = 32
    · subst hx
      rw [List.dropWhile_cons, if_pos (by simp), ih]
      have : splitOn 59 (32 :: r) = match splitOn 59 r with | [] => [[32]] | p :: ps => (32 :: p) :: ps := by
        rw [splitOn, if_neg (by decide)]
        cases splitOn 59 r <;> rfl
      rw [this]
      cases hs : splitOn 59 r with
      | nil => exact absurd hs (splitOn_ne_nil 59 r)
      | cons y ys => simp
    · rw [List.dropWhile_cons, if_neg (by simpa using hx)]
      by_cases hc : x = 59
      · subst hc
        simp [splitOn]
      · rw [splitOn, if_neg hc]
        cases splitOn 59 r with
        | nil => simp [hx]
        | cons y ys => simp [hx]

theorem crumbsOf_cons (a y : Str) (ys : List Str) :
    crumbsOf (a :: y :: ys) = a :: crumbsOf (y.dropWhile (· = 32) :: ys) := by
  unfold crumbsOf
  simp only [List.map_cons, List.getLast?_cons_cons, List.dropLast_cons_cons]
  split <;> rfl

theorem crumbs_eq (n : Nat) (v : Str) (hn : v.length < n) : crumbs n v = .ok (crumbsOf (splitOn 59 v)) := by
  induction n generalizing v with
  | zero => omega
  | succ n ih =>
    unfold crumbs
    by_cases h0 : v = []
    · subst h0; rfl
    · rw [if_neg h0]
      by_cases hs : 59 ∈ v
      · rw [if_pos hs]
        -- the first part
        obtain ⟨a, r, hv, hnot⟩ := List.eq_append_cons_of_mem hs
        have hall : ∀ x ∈ a, decide (x ≠ 59) = true := by
          intro x hx
          simp only [ne_eq, decide_not, Bool.not_eq_true', decide_eq_false_iff_not]
          rintro rfl
          exact hnot hx
        have ht : v.takeWhile (· ≠ 59) = a := by
          rw [hv, List.takeWhile_append_of_pos hall]
          simp
        have hr : v.dropWhile (· ≠ 59) = 59 :: r := by
          rw [hv, List.dropWhile_append_of_pos hall]
          simp
        have hlen : (r.dropWhile (· = 32)).length < n := by
          have h1 := (List.dropWhile_sublist (fun x : Nat => decide (x = 32)) (l := r)).length_le
          have h2 := congrArg List.length hv
          rw [List.length_append, List.length_cons] at h2
          omega
        have hsplit : splitOn 59 v = a :: splitOn 59 r := by
          rw [hv]
          exact splitOn_append hnot r
        rw [hr, ht, List.drop_one, List.tail_cons, ih _ hlen, hsplit]
        simp only [bind, Except.bind]
        rw [splitOn_dropSpaces]
        cases hsr : splitOn 59 r with
        | nil => exact absurd hsr (splitOn_ne_nil 59 r)
        | cons y ys => rw [crumbsOf_cons]
      · rw [if_neg hs, splitOn_noSep hs]
        simp [crumbsOf, h0]

theorem linesOf_eq (kv : Str × Str) : linesOf kv = .ok (lineList kv) := by
  unfold linesOf lineList
  split
  · rw [crumbs_eq _ _ (Nat.lt_succ_self _)]
    rfl
  · rfl

theorem lineList_key (kv : Str × Str) : ∀ x ∈ lineList kv, x.1 = kv.1 := by
  unfold lineList
  split
  · intro x hx
    obtain ⟨c, _, rfl⟩ := List.mem_map.1 hx
    rfl
  · intro x hx
    rw [List.mem_singleton.1 hx]

theorem processHeaders_spec {s0 : Codec} {g : Nat} {refs : Str → Nat} (hs : List ((Str × Str) × Bool)) {s : Codec}
    {L : List (Str × Str)} {i : CInstrs} (h : PInv s0 s g L i refs) (hp : s0.pinned = true)
    (hh : ∀ x ∈ hs, x.2 = true → s0.keymap.has x.1.1 = true) :
    ∃ s' i', processHeaders s g hs i = .ok (s', i') ∧
      PInv s0 s' g (L ++ (hs.map (·.1)).flatMap lineList) i' refs := by
  induction hs generalizing s L i with
  | nil => exact ⟨s, i, rfl, by simpa using h⟩
  | cons x hs ih =>
    obtain ⟨s1, i1, e1, h1⟩ := processLines_spec (lineList x.1) (lineList_key x.1) h hp (hh x (by simp))
    obtain ⟨s2, i2, e2, h2⟩ := ih h1 (fun y hy => hh y (by simp [hy]))
    refine ⟨s2, i2, ?_, by simpa using h2⟩
    simp only [processHeaders, linesOf_eq, e1, bind, Except.bind, e2]

/-! ### The frame -/

/-- What holds between frames. -/
structure Idle (s : Codec) : Prop where
  inv : Inv s (fun _ => 0)
  unpinned : s.pinned = false
  gens : ∀ g q t, (groupOf s g).get? q = some t → t < s.frameCount

theorem Inv.pin_end {s : Codec} {refs : Str → Nat} (h : Inv s refs) (hp : s.pinned = false) :
    pinLruEnd s = { s with lru := s.lru ++ [none], pinned := true } ∧ Inv (pinLruEnd s) refs ∧
      beh (pinLruEnd s) = [none] ∧ ev (pinLruEnd s) = s.lru := by
  have hn : none ∉ s.lru := by
    rw [h.pin, hp]
    simp
  have e : pinLruEnd s = { s with lru := s.lru ++ [none], pinned := true } := by simp [pinLruEnd, hp]
  have hall : ∀ x ∈ s.lru, x.isSome = true := by
    intro x hx
    cases x with
    | none => exact absurd hx hn
    | some p => rfl
  refine ⟨e, ?_, ?_, ?_⟩
  · rw [e]
    refine ⟨h.kwf, h.hwf, h.fresh, h.up, h.down, h.vnd, h.refc, h.refk, ?_, ?_, ?_, h.gwf, h.gin, h.grp, h.size, h.nums⟩
    · rw [List.nodup_append]
      refine ⟨h.lnd, by simp, ?_⟩
      intro a ha b hb
      rw [List.mem_singleton] at hb
      subst hb
      rintro rfl
      exact hn ha
    · intro p
      simp only [List.mem_append, List.mem_singleton, reduceCtorEq, or_false]
      exact h.lru p
    · simp
  · rw [e]
    unfold beh
    simp only
    rw [List.dropWhile_append_of_pos hall]
    rfl
  · rw [e]
    unfold ev
    simp only
    rw [List.takeWhile_append_of_pos hall]
    simp

end Verif.Cpp
