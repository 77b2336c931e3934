import Verif.Cpp.CodecInv
/-
The steps of the C++ encoder keep the invariant: storing a value, showing it, toggles.
-/
namespace Verif.Cpp
open Verif

/-- A new value for a key that is there. -/
theorem Inv.addVal {s : Codec} {refs : Str → Nat} {key val : Str} {k : CKey} {p i : Nat} (h : Inv s refs)
    (hk : s.keymap.get? key = some k) (hp : s.heap.get? p = none) (hn : p < s.nextPtr) :
    Inv { s with keymap := s.keymap.set key { k with vals := k.vals ++ [(val, p)] },
                 numVals := s.numVals + 1, stateSize := s.stateSize + val.length,
                 heap := s.heap.set p { key := key, val := val, lruIdx := i, inLru := false } } refs := by
  have hpk : ∀ key' k', s.keymap.get? key' = some k' → ∀ v, (v, p) ∉ k'.vals := by
    intro key' k' hk' v hv
    obtain ⟨e, he, _⟩ := h.down key' k' hk' v p hv
    rw [hp] at he
    cases he
  refine ⟨h.kwf.set _ _, h.hwf.set _ _, ?_, ?_, ?_, ?_, ?_, ?_, h.lnd, ?_, h.pin, h.gwf, h.gin, ?_, ?_, ?_⟩
  · intro q e he
    simp only [Dict.get?_set] at he
    split at he
    · rename_i hc; subst hc; exact hn
    · exact h.fresh q e he
  · intro q e he
    simp only [Dict.get?_set] at he ⊢
    split at he
    · rename_i hc
      subst hc
      cases he
      simp
    · obtain ⟨k0, hk0, hv⟩ := h.up q e he
      split
      · rename_i hc
        rw [← hc, hk] at hk0
        cases hk0
        exact ⟨_, rfl, List.mem_append_left _ hv⟩
      · exact ⟨k0, hk0, hv⟩
  · intro key' k' hk' v q hv
    simp only [Dict.get?_set] at hk' ⊢
    have old : ∀ k0, s.keymap.get? key' = some k0 → (v, q) ∈ k0.vals →
        ∃ e, (if p = q then some { key := key, val := val, lruIdx := i, inLru := false } else s.heap.get? q) =
          some e ∧ e.key = key' ∧ e.val = v := by
      intro k0 hk0 hv0
      have hpq : p ≠ q := fun hc => hpk _ _ hk0 v (hc ▸ hv0)
      rw [if_neg hpq]
      exact h.down key' k0 hk0 v q hv0
    split at hk'
    · rename_i hc
      subst hc
      cases hk'
      rcases List.mem_append.1 hv with hv | hv
      · exact old k hk hv
      · rw [List.mem_singleton] at hv
        cases hv
        simp
    · exact old k' hk' hv
  · intro key' k' hk'
    simp only [Dict.get?_set] at hk'
    split at hk'
    · cases hk'
      rw [List.nodup_append]
      refine ⟨h.vnd key k hk, by simp, ?_⟩
      intro a ha b hb
      rw [List.mem_singleton] at hb
      subst hb
      rintro rfl
      exact hpk _ _ hk _ ha
    · exact h.vnd key' k' hk'
  · intro key' k' hk'
    simp only [Dict.get?_set] at hk'
    split at hk'
    · rename_i hc
      subst hc
      cases hk'
      exact h.refc key k hk
    · exact h.refc key' k' hk'
  · intro key' hr
    simp only [Dict.get?_set]
    split
    · exact ⟨_, rfl⟩
    · exact h.refk key' hr
  · intro q
    simp only [Dict.get?_set]
    rw [h.lru]
    split
    · rename_i hc
      subst hc
      rw [hp]
      simp
    · rfl
  · intro g G hG q t hq
    simp only [Dict.get?_set]
    split
    · exact ⟨_, rfl⟩
    · exact h.grp g G hG q t hq
  · simp only
    rw [sum_set_same _ (fun x : Str × CKey => x.1.length) (w := { k with vals := k.vals ++ [(val, p)] }) hk rfl,
      sum_set_new _ (fun x : Nat × CEntry => x.2.val.length) hp, h.size]
    simp only
    omega
  · simp only
    rw [length_set_new _ hp, h.nums]

/-- A new key. -/
theorem Inv.addKey {s : Codec} {refs : Str → Nat} {key : Str} {ids : Ids} {i : Nat} (h : Inv s refs)
    (hk : s.keymap.get? key = none) :
    Inv { s with keyIds := ids, keymap := s.keymap.set key { idx := i, refcnt := 0, vals := [] },
                 stateSize := s.stateSize + key.length } refs := by
  refine ⟨h.kwf.set _ _, h.hwf, h.fresh, ?_, ?_, ?_, ?_, ?_, h.lnd, h.lru, h.pin, h.gwf, h.gin, h.grp, ?_, h.nums⟩
  · intro q e he
    obtain ⟨k0, hk0, hv⟩ := h.up q e he
    simp only [Dict.get?_set]
    rw [if_neg]
    · exact ⟨k0, hk0, hv⟩
    · intro hc
      rw [← hc, hk] at hk0
      cases hk0
  · intro key' k' hk' v q hv
    simp only [Dict.get?_set] at hk'
    split at hk'
    · cases hk'; cases hv
    · exact h.down key' k' hk' v q hv
  · intro key' k' hk'
    simp only [Dict.get?_set] at hk'
    split at hk'
    · cases hk'; exact List.nodup_nil
    · exact h.vnd key' k' hk'
  · intro key' k' hk'
    simp only [Dict.get?_set] at hk'
    split at hk'
    · rename_i hc
      subst hc
      cases hk'
      by_contra hr
      obtain ⟨k0, hk0⟩ := h.refk key (by simp only at hr; omega)
      rw [hk] at hk0
      cases hk0
    · exact h.refc key' k' hk'
  · intro key' hr
    simp only [Dict.get?_set]
    split
    · exact ⟨_, rfl⟩
    · exact h.refk key' hr
  · simp only
    rw [sum_set_new _ (fun x : Str × CKey => x.1.length) hk, h.size]
    simp only
    omega

theorem Inv.lt_of_lru {s : Codec} {refs : Str → Nat} (h : Inv s refs) {p : Nat} (hp : some p ∈ s.lru) :
    p < s.nextPtr := by
  obtain ⟨e, he, _⟩ := (h.lru p).1 hp
  exact h.fresh p e he

theorem findOrAddKey_spec {s : Codec} {refs : Str → Nat} (key : Str) (h : Inv s refs)
    (hp : s.pinned = true ∨ Room s key.length 0) :
    ∃ s' ps, findOrAddKey s key = .ok s' ∧ Inv s' refs ∧ Evict s s' ps ∧ s'.keymap.has key = true ∧
      (Room s key.length 0 → s'.stateSize ≤ s.stateSize + key.length ∧ s'.numVals = s.numVals) := by
  by_cases hk : s.keymap.has key = true
  · exact ⟨s, [], by simp [findOrAddKey, hk], h, Evict.refl s, hk, fun _ => ⟨by omega, rfl⟩⟩
  · obtain ⟨s1, ps, e1, h1, v1, _, hr⟩ := makeSpace_spec key.length 0 h hp
    have hk0 : s.keymap.get? key = none := by
      cases hg : s.keymap.get? key with
      | none => rfl
      | some k => exact absurd (has_iff.2 ⟨k, hg⟩) hk
    have hk1 := v1.keys key hk0
    refine ⟨{ s1 with keyIds := s1.keyIds.getNext.2,
                      keymap := s1.keymap.set key { idx := s1.keyIds.getNext.1, refcnt := 0, vals := [] },
                      stateSize := s1.stateSize + key.length }, ps, ?_, h1.addKey hk1, ?_, ?_, ?_⟩
    · simp [findOrAddKey, hk, e1, bind, Except.bind]
    · have v := v1.toEvict
      exact ⟨v.lru, v.heap, v.grp, v.maxS, v.maxV, v.pinned, v.nextPtr, v.fc⟩
    · exact has_iff.2 ⟨_, by simp only [Dict.get?_set]; rw [if_pos trivial]⟩
    · intro hroom
      have := hr hroom
      subst this
      exact ⟨Nat.le_refl _, rfl⟩

/-- `s'` is `s` after `ps` were evicted and then the entry `p` stored. -/
structure Stored (s s' : Codec) (ps : List Nat) (p : Nat) (key val : Str) (inLru : Bool) : Prop where
  lru : ∃ mid, s.lru = ps.map some ++ mid ∧ s'.lru = mid ++ (if inLru then [some p] else [])
  heap : ∀ q, q ≠ p → s'.heap.get? q = if q ∈ ps then none else s.heap.get? q
  new : ∃ e, s'.heap.get? p = some e ∧ e.key = key ∧ e.val = val ∧ e.inLru = inLru
  ptr : p = s.nextPtr
  maxS : s'.maxState = s.maxState
  maxV : s'.maxVals = s.maxVals
  pinned : s'.pinned = s.pinned
  nextPtr : s'.nextPtr = s.nextPtr + 1
  fc : s'.frameCount = s.frameCount

theorem insertVal_spec {s : Codec} {refs : Str → Nat} {key : Str} (val : Str) (h : Inv s refs)
    (hk : s.keymap.has key = true) (hp : s.pinned = true ∨ Room s val.length 1) :
    ∃ s' ps, insertVal s key val = .ok (s.nextPtr, s') ∧ Inv s' refs ∧
      Stored s s' ps s.nextPtr key val false ∧
      (∀ g, s'.groups.get? g = (s.groups.get? g).map fun G => ps.foldl Dict.del G) ∧
      (Room s val.length 1 → s'.stateSize = s.stateSize + val.length ∧ s'.numVals = s.numVals + 1) := by
  obtain ⟨s1, e1, h1, b1⟩ := incRef_spec h hk
  have hn1 : Inv { s1 with nextPtr := s1.nextPtr + 1 } (bump refs key) :=
    ⟨h1.kwf, h1.hwf, fun p e he => Nat.lt_succ_of_lt (h1.fresh p e he), h1.up, h1.down, h1.vnd, h1.refc, h1.refk, h1.lnd,
      h1.lru, h1.pin, h1.gwf, h1.gin, h1.grp, h1.size, h1.nums⟩
  have hroom : Room s val.length 1 → Room { s1 with nextPtr := s1.nextPtr + 1 } val.length 1 := by
    intro hr
    unfold Room at *
    simp only [b1.nums, b1.maxV, b1.size, b1.maxS]
    exact hr
  obtain ⟨s2, ps, e2, h2, v2, _, hr2⟩ := makeSpace_spec val.length 1 hn1
    (hp.imp (fun hp => b1.pinned.trans hp) hroom)
  obtain ⟨s3, e3, h3, b3⟩ := decRef_spec h2
  obtain ⟨k2, hk2⟩ := h2.refk key (by simp [bump])
  obtain ⟨k, hk3, _⟩ := b3.vals key k2 hk2
  have hnone : s3.heap.get? s.nextPtr = none := by
    rw [b3.heap, v2.heap]
    split
    · rfl
    · simp only [b1.heap]
      cases hg : s.heap.get? s.nextPtr with
      | none => rfl
      | some e => exact absurd (h.fresh _ _ hg) (by omega)
  have hlt : s.nextPtr < s3.nextPtr := by
    rw [b3.nextPtr, v2.nextPtr]
    simp only [b1.nextPtr]
    omega
  refine ⟨_, ps, ?_, h3.addVal (val := val) (i := 0) hk3 hnone hlt, ?_, ?_, ?_⟩
  · simp only [insertVal, e1, e2, e3, bind, Except.bind, keyAt, hk3]
    rw [b1.nextPtr]
  · refine ⟨⟨s3.lru, ?_, by simp⟩, ?_, ?_, rfl, ?_, ?_, ?_, ?_, ?_⟩
    · rw [b3.lru, ← b1.lru]
      exact v2.lru
    · intro q hq
      simp only [Dict.get?_set]
      rw [if_neg (fun hc => hq hc.symm), b3.heap, v2.heap]
      simp only [b1.heap]
    · exact ⟨_, by simp only [Dict.get?_set]; rw [if_pos trivial], rfl, rfl, rfl⟩
    · exact b3.maxS.trans (v2.maxS.trans b1.maxS)
    · exact b3.maxV.trans (v2.maxV.trans b1.maxV)
    · exact b3.pinned.trans (v2.pinned.trans b1.pinned)
    · exact b3.nextPtr.trans (v2.nextPtr.trans (by simp only [b1.nextPtr]))
    · exact b3.fc.trans (v2.fc.trans b1.fc)
  · intro g
    simp only
    rw [b3.groups, v2.grp]
    simp only [b1.groups]
  · intro hr
    have := hr2 (hroom hr)
    subst this
    exact ⟨by simp only [b3.size, b1.size], by simp only [b3.nums, b1.nums]⟩

/-! ### The list of recent use -/

theorem Inv.setLru {s : Codec} {refs : Str → Nat} {p : Nat} {e : CEntry} {ids : Ids} {i : Nat} (h : Inv s refs)
    (he : s.heap.get? p = some e) (hi : e.inLru = false) :
    Inv { s with lru := s.lru ++ [some p], lruIds := ids,
                 heap := s.heap.set p { e with lruIdx := i, inLru := true } } refs := by
  have hnot : some p ∉ s.lru := by
    intro hc
    obtain ⟨f, hf, hfi⟩ := (h.lru p).1 hc
    rw [he] at hf
    cases hf
    rw [hi] at hfi
    cases hfi
  have hget : ∀ q f, Dict.get? (s.heap.set p { e with lruIdx := i, inLru := true }) q = some f →
      ∃ f0, s.heap.get? q = some f0 ∧ f0.key = f.key ∧ f0.val = f.val := by
    intro q f hq
    rw [Dict.get?_set] at hq
    split at hq
    · rename_i hc; subst hc; cases hq; exact ⟨e, he, rfl, rfl⟩
    · exact ⟨f, hq, rfl, rfl⟩
  have hget' : ∀ q f, s.heap.get? q = some f →
      ∃ f0, Dict.get? (s.heap.set p { e with lruIdx := i, inLru := true }) q = some f0 ∧ f0.key = f.key ∧ f0.val = f.val := by
    intro q f hq
    rw [Dict.get?_set]
    split
    · rename_i hc; subst hc; rw [he] at hq; cases hq; exact ⟨_, rfl, rfl, rfl⟩
    · exact ⟨f, hq, rfl, rfl⟩
  refine ⟨h.kwf, h.hwf.set _ _, ?_, ?_, ?_, h.vnd, h.refc, h.refk, ?_, ?_, ?_, h.gwf, h.gin, ?_, ?_, ?_⟩
  · intro q f hq
    obtain ⟨f0, hf0, _⟩ := hget q f hq
    exact h.fresh q f0 hf0
  · intro q f hq
    obtain ⟨f0, hf0, e1, e2⟩ := hget q f hq
    rw [← e1, ← e2]
    exact h.up q f0 hf0
  · intro key k hk v q hv
    obtain ⟨f, hf, e1, e2⟩ := h.down key k hk v q hv
    obtain ⟨f0, hf0, e3, e4⟩ := hget' q f hf
    exact ⟨f0, hf0, e3.trans e1, e4.trans e2⟩
  · rw [List.nodup_append]
    refine ⟨h.lnd, by simp, ?_⟩
    intro a ha b hb
    rw [List.mem_singleton] at hb
    subst hb
    rintro rfl
    exact hnot ha
  · intro q
    simp only [Dict.get?_set, List.mem_append, List.mem_singleton, h.lru]
    constructor
    · rintro (⟨f, hf, hfi⟩ | hc)
      · split
        · exact ⟨_, rfl, rfl⟩
        · exact ⟨f, hf, hfi⟩
      · rw [if_pos (Option.some.inj hc).symm]
        exact ⟨_, rfl, rfl⟩
    · rintro ⟨f, hf, hfi⟩
      split at hf
      · rename_i hc; exact Or.inr (congrArg some hc.symm)
      · exact Or.inl ⟨f, hf, hfi⟩
  · simp only [List.mem_append, List.mem_singleton, reduceCtorEq, or_false]
    exact h.pin
  · intro g G hG q t hq
    obtain ⟨f, hf⟩ := h.grp g G hG q t hq
    obtain ⟨f0, hf0, _⟩ := hget' q f hf
    exact ⟨f0, hf0⟩
  · rw [h.size]
    simp only
    rw [sum_set_same _ (fun x : Nat × CEntry => x.2.val.length) (w := { e with lruIdx := i, inLru := true }) he rfl]
  · simp only
    rw [length_set_same _ he, h.nums]

/-- The list changed by moving elements about. -/
theorem Inv.permLru {s : Codec} {refs : Str → Nat} {l : List (Option Nat)} (h : Inv s refs) (hp : l.Perm s.lru) :
    Inv { s with lru := l } refs :=
  ⟨h.kwf, h.hwf, h.fresh, h.up, h.down, h.vnd, h.refc, h.refk, hp.nodup_iff.2 h.lnd,
    fun p => hp.mem_iff.trans (h.lru p), hp.mem_iff.trans h.pin, h.gwf, h.gin, h.grp, h.size, h.nums⟩

/-- One group changed. -/
theorem Inv.setGroup {s : Codec} {refs : Str → Nat} {g : Nat} {G : Dict Nat Nat} (h : Inv s refs) (hG : G.WF)
    (hin : ∀ p t, G.get? p = some t → ∃ e, s.heap.get? p = some e) :
    Inv { s with groups := s.groups.set g G } refs := by
  refine ⟨h.kwf, h.hwf, h.fresh, h.up, h.down, h.vnd, h.refc, h.refk, h.lnd, h.lru, h.pin, h.gwf.set _ _, ?_, ?_, h.size,
    h.nums⟩
  · intro g' G' hG'
    simp only [Dict.get?_set] at hG'
    split at hG'
    · cases hG'; exact hG
    · exact h.gin g' G' hG'
  · intro g' G' hG' p t hp
    simp only [Dict.get?_set] at hG'
    split at hG'
    · cases hG'; exact hin p t hp
    · exact h.grp g' G' hG' p t hp

theorem Inv.group_wf {s : Codec} {refs : Str → Nat} (h : Inv s refs) (g : Nat) : (groupOf s g).WF := by
  unfold groupOf
  cases hg : s.groups.get? g with
  | none => exact Dict.wf_nil
  | some G => exact h.gin g G hg

theorem Inv.group_in {s : Codec} {refs : Str → Nat} (h : Inv s refs) (g : Nat) {p t : Nat}
    (hp : (groupOf s g).get? p = some t) : ∃ e, s.heap.get? p = some e := by
  unfold groupOf at hp
  cases hg : s.groups.get? g with
  | none => rw [hg] at hp; cases hp
  | some G => rw [hg] at hp; exact h.grp g G hg p t hp

theorem groupOf_set (s : Codec) (g : Nat) (G : Dict Nat Nat) (g' : Nat) :
    groupOf { s with groups := s.groups.set g G } g' = if g = g' then G else groupOf s g' := by
  unfold groupOf
  simp only [Dict.get?_set]
  split <;> rfl

theorem groupOf_map {s s' : Codec} {f : Dict Nat Nat → Dict Nat Nat} (hf : f [] = [])
    (h : ∀ g, s'.groups.get? g = (s.groups.get? g).map f) (g : Nat) : groupOf s' g = f (groupOf s g) := by
  unfold groupOf
  rw [h]
  cases s.groups.get? g with
  | none => exact hf.symm
  | some G => rfl

theorem foldl_del_nil (ps : List Nat) : ps.foldl Dict.del ([] : Dict Nat Nat) = [] := by
  induction ps with
  | nil => rfl
  | cons p ps ih => exact ih

theorem addLine_spec {s : Codec} {refs : Str → Nat} {key : Str} {g : Nat} (val : Str) (h : Inv s refs)
    (hk : s.keymap.has key = true) (hp : s.pinned = true) (hg : 0 < g) :
    ∃ s' ps, addLine s g key val = .ok s' ∧ Inv s' refs ∧ Stored s s' ps s.nextPtr key val true ∧
      ∀ g' q, (groupOf s' g').get? q =
        if g' = g ∧ q = s.nextPtr then some s.frameCount else if q ∈ ps then none else (groupOf s g').get? q := by
  obtain ⟨s1, ps, e1, h1, v1, g1, _⟩ := insertVal_spec val h hk (Or.inl hp)
  obtain ⟨e, he, ek, evl, ei⟩ := v1.new
  have h2 := h1.setLru (ids := s1.lruIds.getNext.2) (i := s1.lruIds.getNext.1) he ei
  have hadd : addToHead s1 s.nextPtr = .ok { s1 with
      lru := s1.lru ++ [some s.nextPtr], lruIds := s1.lruIds.getNext.2,
      heap := s1.heap.set s.nextPtr { e with lruIdx := s1.lruIds.getNext.1, inLru := true } } := by
    simp [addToHead, entryAt, he, ei, bind, Except.bind]
  have hgrp : ∀ g', groupOf s1 g' = ps.foldl Dict.del (groupOf s g') := groupOf_map (foldl_del_nil ps) g1
  have hnone : (groupOf s g).get? s.nextPtr = none := by
    cases hc : (groupOf s g).get? s.nextPtr with
    | none => rfl
    | some t =>
      obtain ⟨f, hf⟩ := h.group_in g hc
      exact absurd (h.fresh _ _ hf) (by omega)
  have hnot : (groupOf s1 g).has s.nextPtr = false := by
    cases hc : (groupOf s1 g).has s.nextPtr with
    | false => rfl
    | true =>
      obtain ⟨t, ht⟩ := has_iff.1 hc
      rw [hgrp, get?_foldl_del (h.group_wf g)] at ht
      split at ht
      · cases ht
      · rw [hnone] at ht; cases ht
  refine ⟨_, ps, ?_, h2.setGroup (g := g) (G := (groupOf s1 g).set s.nextPtr s1.frameCount)
    ((h1.group_wf g).set _ _) ?_, ?_, ?_⟩
  · simp only [addLine, e1, bind, Except.bind, hadd, if_pos hg]
    have : groupOf { s1 with
        lru := s1.lru ++ [some s.nextPtr], lruIds := s1.lruIds.getNext.2,
        heap := s1.heap.set s.nextPtr { e with lruIdx := s1.lruIds.getNext.1, inLru := true } } g = groupOf s1 g := rfl
    simp only [showEntry, this, hnot]
    rfl
  · intro q t hq
    simp only [Dict.get?_set] at hq ⊢
    split
    · exact ⟨_, rfl⟩
    · rename_i hc
      rw [if_neg hc] at hq
      exact h1.group_in g hq
  · obtain ⟨mid, m1, m2⟩ := v1.lru
    refine ⟨⟨mid, m1, ?_⟩, ?_, ?_, rfl, v1.maxS, v1.maxV, v1.pinned, v1.nextPtr, v1.fc⟩
    · simp only [m2]
      simp
    · intro q hq
      simp only [Dict.get?_set]
      rw [if_neg (fun hc => hq hc.symm)]
      exact v1.heap q hq
    · exact ⟨{ e with lruIdx := s1.lruIds.getNext.1, inLru := true },
        by simp only [Dict.get?_set]; rw [if_pos trivial], ek, evl, rfl⟩
  · intro g' q
    have : groupOf { s1 with
        lru := s1.lru ++ [some s.nextPtr], lruIds := s1.lruIds.getNext.2,
        heap := s1.heap.set s.nextPtr { e with lruIdx := s1.lruIds.getNext.1, inLru := true },
        groups := s1.groups.set g ((groupOf s1 g).set s.nextPtr s1.frameCount) } g' =
        if g = g' then (groupOf s1 g).set s.nextPtr s1.frameCount else groupOf s1 g' :=
      groupOf_set s1 g _ g'
    refine (congrArg (fun G => Dict.get? G q) this).trans ?_
    by_cases hgg : g = g'
    · subst hgg
      simp only [if_true, true_and, Dict.get?_set]
      by_cases hq : s.nextPtr = q
      · subst hq
        simp [v1.fc]
      · rw [if_neg hq, if_neg (fun hc => hq hc.symm), hgrp, get?_foldl_del (h.group_wf g)]
    · have : ¬ (g' = g ∧ q = s.nextPtr) := fun hc => hgg hc.1.symm
      rw [if_neg hgg, if_neg this, hgrp, get?_foldl_del (h.group_wf g')]

/-! ### Moving entries behind the pin -/

theorem takeWhile_move (l : List (Option Nat)) (p : Nat) (hn : none ∈ l) :
    (l.erase (some p) ++ [some p]).takeWhile (·.isSome) = (l.takeWhile (·.isSome)).erase (some p) := by
  induction l with
  | nil => cases hn
  | cons x l ih =>
    cases x with
    | none => simp
    | some q =>
      have hn' : none ∈ l := by
        rcases List.mem_cons.1 hn with hc | hc
        · cases hc
        · exact hc
      by_cases e : q = p
      · subst e
        simp only [List.erase_cons_head, List.takeWhile_cons, Option.isSome_some, if_true]
        clear ih hn
        induction l with
        | nil => cases hn'
        | cons y l ih2 =>
          cases y with
          | none => simp
          | some r =>
            have : none ∈ l := by
              rcases List.mem_cons.1 hn' with hc | hc
              · cases hc
              · exact hc
            simp [ih2 this]
      · have e' : (some q == some p) = false := by simpa using e
        rw [List.erase_cons_tail (by simp [e']), List.cons_append, List.takeWhile_cons, List.takeWhile_cons]
        simp only [Option.isSome_some, if_true]
        rw [List.erase_cons_tail (by simp [e']), ih hn']

theorem dropWhile_move (l : List (Option Nat)) (p q : Nat)
    (hq : some q ∈ (l.erase (some p) ++ [some p]).dropWhile (·.isSome)) :
    some q ∈ l.dropWhile (·.isSome) ∨ q = p := by
  induction l with
  | nil => simp at hq
  | cons x l ih =>
    cases x with
    | none =>
      rw [List.erase_cons_tail (by simp)] at hq
      simp only [List.cons_append, List.dropWhile_cons, Option.isSome_none, Bool.false_eq_true, if_false] at hq ⊢
      rcases List.mem_cons.1 hq with hc | hc
      · cases hc
      · rcases List.mem_append.1 hc with hc | hc
        · exact Or.inl (List.mem_cons_of_mem _ (List.mem_of_mem_erase hc))
        · rw [List.mem_singleton] at hc
          exact Or.inr (Option.some.inj hc)
    | some r =>
      by_cases e : r = p
      · subst e
        simp only [List.erase_cons_head] at hq
        simp only [List.dropWhile_cons, Option.isSome_some, if_true]
        clear ih
        induction l with
        | nil => simp at hq
        | cons y l ih2 =>
          cases y with
          | none =>
            simp only [List.cons_append, List.dropWhile_cons, Option.isSome_none, Bool.false_eq_true, if_false] at hq ⊢
            rcases List.mem_cons.1 hq with hc | hc
            · cases hc
            · rcases List.mem_append.1 hc with hc | hc
              · exact Or.inl (List.mem_cons_of_mem _ hc)
              · rw [List.mem_singleton] at hc
                exact Or.inr (Option.some.inj hc)
          | some t =>
            simp only [List.cons_append, List.dropWhile_cons, Option.isSome_some, if_true] at hq ⊢
            exact ih2 hq
      · rw [List.erase_cons_tail (by simpa using e)] at hq
        simp only [List.cons_append, List.dropWhile_cons, Option.isSome_some, if_true] at hq ⊢
        exact ih hq

/-- `s'` is `s` with the entry `p` moved to the end of the list if it is in it. -/
structure Moved (s s' : Codec) (p : Nat) : Prop where
  ev : ∀ q, some q ∈ ev s' ↔ some q ∈ ev s ∧ q ≠ p
  beh : ∀ q, some q ∈ beh s' → some q ∈ beh s ∨ q = p
  rest : s' = { s with lru := s'.lru }

theorem moveToHead_spec {s : Codec} {refs : Str → Nat} {p : Nat} {e : CEntry} (h : Inv s refs)
    (hp : s.pinned = true) (he : s.heap.get? p = some e) :
    ∃ s', moveToHead s p = .ok s' ∧ Inv s' refs ∧ Moved s s' p := by
  have hent : entryAt s p = .ok e := by simp [entryAt, he]
  cases hi : e.inLru with
  | false =>
    refine ⟨s, by simp [moveToHead, hent, hi, bind, Except.bind], h, ?_, fun q hq => Or.inl hq, rfl⟩
    intro q
    refine ⟨fun hq => ⟨hq, ?_⟩, fun hq => hq.1⟩
    rintro rfl
    have : some q ∈ s.lru := (List.takeWhile_sublist _).subset hq
    obtain ⟨f, hf, hfi⟩ := (h.lru q).1 this
    rw [he] at hf
    cases hf
    rw [hi] at hfi
    cases hfi
  | true =>
    have hmem : some p ∈ s.lru := (h.lru p).2 ⟨e, he, hi⟩
    refine ⟨{ s with lru := s.lru.erase (some p) ++ [some p] }, by simp [moveToHead, hent, hi, bind, Except.bind],
      h.permLru ?_, ?_, ?_, rfl⟩
    · refine (List.perm_append_comm).trans ?_
      exact (List.perm_cons_erase hmem).symm
    · intro q
      have := takeWhile_move s.lru p (h.pin.2 hp)
      unfold Cpp.ev
      simp only
      rw [this, (h.lnd.sublist (List.takeWhile_sublist _)).mem_erase_iff]
      simp [and_comm]
    · intro q hq
      exact dropWhile_move s.lru p q hq

end Verif.Cpp
