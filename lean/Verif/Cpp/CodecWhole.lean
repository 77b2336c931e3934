import Mathlib.Data.List.Nodup
import Verif.Cpp.CodecFrame
import Verif.Cpp.CodecRoom
/-
ProcessFrame of the C++ encoder up to the serialization, and after it.
-/
namespace Verif.Cpp
open Verif

/-- What holds when a frame with the lines `L` is about to be written. -/
structure Staged (s s' : Codec) (g : Nat) (L : List (Str × Str)) (i : CInstrs) : Prop where
  inv : Inv s' (fun _ => 0)
  pinned : s'.pinned = true
  maxS : s'.maxState = s.maxState
  maxV : s'.maxVals = s.maxVals
  fc : s'.frameCount = s.frameCount
  gens : ∀ g' q t, (groupOf s' g').get? q = some t → t ≤ s.frameCount
  ons : ∀ p ∈ i.ons, ∃ e, s'.heap.get? p = some e
  offs : ∀ p ∈ i.offs, (groupOf s g).has p = true
  old : ∀ q e, s'.heap.get? q = some e → s.heap.get? q = some e ∨ s.nextPtr ≤ q
  clones : ∀ c ∈ i.clones, s'.keymap.has c.1 = true
  lines : ∀ c ∈ i.clones ++ i.kvstos, c ∈ L
  beh : ∀ q, some q ∈ beh s' → ∃ e, s'.heap.get? q = some e ∧ e.pair ∈ L
  other : ∀ g', g' ≠ g → ∀ q, (groupOf s' g').get? q = if s'.heap.has q then (groupOf s g').get? q else none
  new : ∀ c ∈ i.clones ++ i.kvstos, ∀ q e, s.heap.get? q = some e → e.pair ≠ c
  still : i.clones = [] → i.kvstos = [] → s'.heap = s.heap
  gone : ∀ p, (groupOf s g).has p = true → p ∈ i.offs ∨ ∃ e, s'.heap.get? p = some e
  kept : ∀ q e, s.heap.get? q = some e → e.inLru = false → s'.heap.get? q = some e
  shown : L.Nodup → ∀ q t, (groupOf s' g).get? q = some t → Safe s' q ∧ ∃ e, s'.heap.get? q = some e ∧ e.pair ∈ L
  cover : L.Nodup → ∀ kv ∈ L, ∃ q e, (groupOf s' g).has q = true ∧ s'.heap.get? q = some e ∧ e.pair = kv
  uniq : L.Nodup → ∀ q q' e e', (groupOf s' g).has q = true → (groupOf s' g).has q' = true →
    s'.heap.get? q = some e → s'.heap.get? q' = some e' → e.pair = e'.pair → q = q'
  sent : ∀ kv ∈ L, (∃ q e, s.heap.get? q = some e ∧ e.pair = kv) ∨ kv ∈ i.clones ++ i.kvstos
  once : L.Nodup → (i.clones ++ i.kvstos).Nodup
  room : s.numVals + (i.clones ++ i.kvstos).length ≤ s.maxVals →
    s.stateSize + lineBytes (i.clones ++ i.kvstos) ≤ s.maxState →
    ∀ q e, s.heap.get? q = some e → ∃ e', s'.heap.get? q = some e'

theorem beforeWriting_spec {order : List Nat → List Nat} (ho : ∀ l, (order l).Perm l) {s : Codec} (hs : Idle s)
    {g : Nat} (hg : 0 < g) (headers : List (Str × Str)) :
    ∃ s' i, beforeWriting order s g headers = .ok (s', i) ∧ Staged s s' g (headers.flatMap lineList) i := by
  obtain ⟨e0, h0, bh0, ev0⟩ := hs.inv.pin_end hs.unpinned
  -- the group
  obtain ⟨s1, e1, h1, k1, m1, p1, w1, n1, l1, g1, f1, y1, z1⟩ : ∃ s1, (if (pinLruEnd s).groups.has g then pinLruEnd s
      else { pinLruEnd s with groups := (pinLruEnd s).groups.set g [] }) = s1 ∧ Inv s1 (fun _ => 0) ∧
      s1.heap = s.heap ∧ s1.maxState = s.maxState ∧ s1.pinned = true ∧ s1.maxVals = s.maxVals ∧
      s1.nextPtr = s.nextPtr ∧ s1.lru = (pinLruEnd s).lru ∧
      (∀ g', groupOf s1 g' = groupOf s g') ∧ s1.frameCount = s.frameCount ∧ s1.keymap = s.keymap ∧
      s1.stateSize = s.stateSize := by
    have hgr : ∀ g', groupOf (pinLruEnd s) g' = groupOf s g' := fun g' => by rw [e0]; rfl
    by_cases hc : (pinLruEnd s).groups.has g = true
    · refine ⟨pinLruEnd s, by rw [if_pos hc], h0, ?_, ?_, ?_, ?_, ?_, rfl, hgr, ?_, ?_, ?_⟩ <;> rw [e0]
    · refine ⟨_, by rw [if_neg hc], h0.setGroup Dict.wf_nil (by simp), ?_, ?_, ?_, ?_, ?_, rfl, ?_, ?_, ?_, ?_⟩
      · rw [e0]
      · rw [e0]
      · rw [e0]
      · rw [e0]
      · rw [e0]
      · intro g'
        rw [groupOf_set]
        split
        · rename_i hgg
          subst hgg
          rw [← hgr]
          unfold groupOf
          cases hd : (pinLruEnd s).groups.get? g with
          | none => rfl
          | some G => exact absurd (has_iff.2 ⟨G, hd⟩) hc
        · exact hgr g'
      · rw [e0]
      · rw [e0]
      · rw [e0]
  have bh1 : beh s1 = [none] := by
    rw [← bh0]
    unfold beh
    rw [l1]
  -- the references
  obtain ⟨s2, e2, h2, b2⟩ := lookupKeys_spec headers h1
  -- the lines
  have hP0 : PInv s2 s2 g [] { ons := [], offs := [], clones := [], kvstos := [] }
      (lbumps (fun _ => 0) (headers.map fun h => (h, s1.keymap.has h.1))) := by
    have hgens : ∀ q, (groupOf s2 g).get? q ≠ some s2.frameCount := by
      intro q hc
      rw [b2.groupOf, g1] at hc
      have := hs.gens g q _ hc
      rw [b2.fc, f1] at this
      omega
    refine ⟨h2, Tog.refl s2 g, fun _ => rfl, fun q t hq _ => hq, fun q hq => absurd hq (hgens q), by simp, rfl, by simp,
      by simp, by simp, ?_, by simp, ?_, by simp, by simp⟩
    · intro q hq
      rw [b2.beh, bh1] at hq
      simp at hq
    · intro q e k hq
      rcases hq with hq | hq
      · exact absurd hq (hgens q)
      · cases hq
  obtain ⟨s3, i3, e3, h3⟩ := processHeaders_spec (headers.map fun h => (h, s1.keymap.has h.1)) hP0
    (b2.pinned.trans p1) (by
      intro x hx hx2
      obtain ⟨y, _, rfl⟩ := List.mem_map.1 hx
      rw [b2.has]
      exact hx2)
  have hL : ([] : List (Str × Str)) ++ ((headers.map fun h => (h, s1.keymap.has h.1)).map (·.1)).flatMap lineList =
      headers.flatMap lineList := by
    rw [List.map_map, List.nil_append]
    congr 1
    simp [Function.comp_def]
  rw [hL] at h3
  generalize headers.flatMap lineList = L at h3 ⊢
  have hp3 : s3.pinned = true := h3.tog.pinned.trans (b2.pinned.trans p1)
  have hheap3 : s3.heap = s.heap := h3.tog.heap.trans (b2.heap.trans k1)
  have hfc3 : s3.frameCount = s.frameCount := h3.tog.fc.trans (b2.fc.trans f1)
  -- the entries to turn off
  have hoff : ∀ p, p ∈ turnOffs order s3 g ↔ ∃ t, (groupOf s3 g).get? p = some t ∧ t ≠ s3.frameCount := by
    intro p
    unfold turnOffs
    rw [(ho _).mem_iff, List.mem_map]
    constructor
    · rintro ⟨⟨q, t⟩, hm, rfl⟩
      obtain ⟨ha, hb⟩ := List.mem_filter.1 hm
      exact ⟨t, (Dict.mem_iff_get? (h3.inv.group_wf g)).1 ha, by simpa using hb⟩
    · rintro ⟨t, ha, hb⟩
      exact ⟨(p, t), List.mem_filter.2 ⟨Dict.get?_mem ha, by simpa using hb⟩, rfl⟩
  have hoffnd : (turnOffs order s3 g).Nodup := by
    unfold turnOffs
    rw [(ho _).nodup_iff]
    exact (h3.inv.group_wf g).sublist (List.Sublist.map _ (List.filter_sublist))
  -- the toggles on
  obtain ⟨s4, e4, h4, t4, sf4, ge4, sm4, bh4, on4, _⟩ := toggles_spec (g := g) i3.ons h3.inv hp3 (by
    intro p hp
    obtain ⟨_, e, he, _⟩ := h3.ons p hp
    exact has_iff.2 ⟨e, he⟩)
  -- the toggles off
  obtain ⟨s5, e5, h5, t5, _, ge5, _, bh5, _, off5⟩ := toggles_spec (g := g) (turnOffs order s3 g) h4 (t4.pinned.trans hp3) (by
    intro p hp
    obtain ⟨t, ht, _⟩ := (hoff p).1 hp
    obtain ⟨e, he⟩ := h3.inv.group_in g ht
    rw [t4.heap]
    exact has_iff.2 ⟨e, he⟩)
  have t35 := t4.trans t5
  -- the clones
  obtain ⟨s6, e6, h6, b6⟩ := incRefs_spec i3.clones h5 (by
    intro c hc
    rw [t35.keymap]
    exact (h3.clones c hc).2)
  obtain ⟨s7, e7, h7, p7⟩ := cloneLoop_spec hg i3.clones h6 (b6.pinned.trans (t35.pinned.trans hp3))
  -- the KVStos
  obtain ⟨s8, e8, h8, p8⟩ := kvstoLoop_spec hg i3.kvstos h7 (p7.pinned.trans (b6.pinned.trans (t35.pinned.trans hp3)))
  obtain ⟨s9, e9, h9, b9⟩ := releaseKeys_spec _ h8
  have P : Prog s5 s9 g (([] ++ (i3.clones ++ i3.kvstos)) ++ []) :=
    ((b6.prog h5 g).trans h5 h6 h8 (p7.trans h6 h7 h8 p8)).trans h5 h8 h9 (b9.prog h8 g)
  rw [List.nil_append, List.append_nil] at P
  have hheap5 : s5.heap = s.heap := t35.heap.trans hheap3
  have hfc5 : s5.frameCount = s.frameCount := t35.fc.trans hfc3
  have hptr5 : s5.nextPtr = s.nextPtr := by
    rw [t35.rest]
    show s3.nextPtr = s.nextPtr
    rw [h3.tog.rest]
    show s2.nextPtr = s.nextPtr
    exact b2.nextPtr.trans n1
  have hmS : s5.maxState = s.maxState := by
    rw [t35.rest]
    show s3.maxState = s.maxState
    rw [h3.tog.rest]
    exact b2.maxS.trans m1
  have hmV : s5.maxVals = s.maxVals := by
    rw [t35.rest]
    show s3.maxVals = s.maxVals
    rw [h3.tog.rest]
    exact b2.maxV.trans w1
  have hon_safe : ∀ p ∈ i3.ons, Safe s5 p := fun p hp => t5.safe p (sf4 p hp (h3.ons p hp).1)
  -- the group before the clones, for a frame without repeated lines
  have hgrp5 : L.Nodup → ∀ q, (groupOf s5 g).get? q =
      if q ∈ turnOffs order s3 g then none else if q ∈ i3.ons then some s3.frameCount else (groupOf s3 g).get? q := by
    intro hnd q
    have h4g := on4 (h3.nodup hnd) (fun p hp => (h3.ons p hp).1)
    rw [off5 hoffnd (by
      intro p hp
      obtain ⟨t, ht, _⟩ := (hoff p).1 hp
      refine has_iff.2 ?_
      rw [h4g]
      split
      · exact ⟨_, rfl⟩
      · exact ⟨t, ht⟩), h4g]
  have hin5 : L.Nodup → ∀ q t, (groupOf s5 g).get? q = some t →
      (groupOf s3 g).get? q = some s3.frameCount ∨ q ∈ i3.ons := by
    intro hnd q t hq
    rw [hgrp5 hnd] at hq
    split at hq
    · cases hq
    · rename_i hno
      split at hq
      · rename_i hon; exact Or.inr hon
      · refine Or.inl ?_
        by_cases ht : t = s3.frameCount
        · rw [← ht]; exact hq
        · exact absurd ((hoff q).2 ⟨t, hq, ht⟩) hno
  have hsafe5 : ∀ q, (groupOf s3 g).get? q = some s3.frameCount ∨ q ∈ i3.ons → Safe s5 q := by
    intro q hq
    rcases hq with hq | hq
    · exact t35.safe q (h3.touched q hq).1
    · exact hon_safe q hq
  have hpair5 : ∀ q, (groupOf s3 g).get? q = some s3.frameCount ∨ q ∈ i3.ons →
      ∃ e, s5.heap.get? q = some e ∧ e.pair ∈ L := by
    intro q hq
    rw [t35.heap]
    rcases hq with hq | hq
    · exact (h3.touched q hq).2
    · exact (h3.ons q hq).2
  have hfwd : L.Nodup → ∀ q, (groupOf s3 g).get? q = some s3.frameCount ∨ q ∈ i3.ons →
      (groupOf s5 g).get? q = some s3.frameCount := by
    intro hnd q hq
    rw [hgrp5 hnd]
    have hno : q ∉ turnOffs order s3 g := by
      intro hc
      obtain ⟨t, ht, hne⟩ := (hoff q).1 hc
      rcases hq with hq | hq
      · rw [ht] at hq
        exact hne (Option.some.inj hq)
      · have := (h3.ons q hq).1
        rw [has_iff.2 ⟨t, ht⟩] at this
        cases this
    rw [if_neg hno]
    split
    · rfl
    · rename_i hn
      exact hq.resolve_right hn
  have hlines : ∀ c ∈ i3.clones ++ i3.kvstos, c ∈ L := by
    intro c hc
    rcases List.mem_append.1 hc with hc | hc
    · exact (h3.clones c hc).1
    · exact h3.kvstos c hc
  -- group members at the end
  have hmem9 : L.Nodup → ∀ q t e, (groupOf s9 g).get? q = some t → s9.heap.get? q = some e →
      (((groupOf s3 g).get? q = some s3.frameCount ∨ q ∈ i3.ons) ∧ s5.heap.get? q = some e) ∨
      (s5.nextPtr ≤ q ∧ Safe s9 q ∧ e.pair ∈ i3.clones ++ i3.kvstos) := by
    intro hnd q t e hq he
    rcases P.gold q t hq with hc | ⟨hc, _⟩
    · have hin := hin5 hnd q t hc
      obtain ⟨f, hf, _⟩ := hpair5 q hin
      have hf9 := P.kept q f hf (hsafe5 q hin)
      rw [he] at hf9
      cases hf9
      exact Or.inl ⟨hin, hf⟩
    · rcases P.old q e he with hd | ⟨_, hd, hm⟩
      · have := h5.fresh q e hd
        omega
      · exact Or.inr ⟨hc, hd, hm⟩
  refine ⟨s9, { i3 with offs := i3.offs ++ turnOffs order s3 g }, ?_, ?_⟩
  · simp only [beforeWriting, e1, e2, e3, bind, Except.bind, executeAll, h3.offs, List.nil_append, e4, e5, e6, e7, e8, e9]
  · constructor
    · exact h9
    · rw [P.pinned]; exact t35.pinned.trans hp3
    · exact P.maxS.trans hmS
    · exact P.maxV.trans hmV
    · exact P.fc.trans hfc5
    · intro g' q t hq
      by_cases hgg : g' = g
      · subst hgg
        rcases P.gold q t hq with hc | ⟨_, hc⟩
        · rcases ge5 q t hc with hc | hc
          · exact Nat.le_of_eq (by rw [hc, t4.fc, hfc3])
          · rcases ge4 q t hc with hc | hc
            · exact Nat.le_of_eq (by rw [hc, hfc3])
            · by_cases ht : t = s3.frameCount
              · exact Nat.le_of_eq (by rw [ht, hfc3])
              · have hd := h3.gold q t hc ht
                rw [b2.groupOf, g1] at hd
                exact Nat.le_of_lt (hs.gens g' q t hd)
        · exact Nat.le_of_eq (by rw [hc, hfc5])
      · rw [P.gother g' hgg] at hq
        split at hq
        · rw [t35.other g' hgg, h3.tog.other g' hgg, b2.groupOf, g1] at hq
          exact Nat.le_of_lt (hs.gens g' q t hq)
        · cases hq
    · intro p hp
      obtain ⟨_, e, he, _⟩ := h3.ons p hp
      exact ⟨e, P.kept p e (by rw [t35.heap]; exact he) (hon_safe p hp)⟩
    · intro p hp
      rw [h3.offs, List.nil_append] at hp
      obtain ⟨t, ht, _⟩ := (hoff p).1 hp
      have := h3.gsame p
      rw [has_iff.2 ⟨t, ht⟩, b2.groupOf, g1] at this
      exact this.symm
    · intro q e he
      rcases P.old q e he with hc | ⟨hc, _⟩
      · rw [hheap5] at hc; exact Or.inl hc
      · rw [hptr5] at hc; exact Or.inr hc
    · intro c hc
      obtain ⟨q, e, _, he, hpair, _⟩ := P.added c (List.mem_append_left _ hc)
      obtain ⟨k, hk, _⟩ := h9.up q e he
      have : e.key = c.1 := congrArg Prod.fst hpair
      rw [this] at hk
      exact has_iff.2 ⟨k, hk⟩
    · exact hlines
    · intro q hq
      have hin9 : some q ∈ s9.lru := (List.dropWhile_sublist _).subset hq
      obtain ⟨f, hf, _⟩ := (h9.lru q).1 hin9
      have hold : ∀ e, s3.heap.get? q = some e → e.pair ∈ L → ∃ e, s9.heap.get? q = some e ∧ e.pair ∈ L := by
        intro e he hm
        rcases P.old q f hf with hd | ⟨hd, _, hm'⟩
        · rw [t35.heap, he] at hd
          cases hd
          exact ⟨_, hf, hm⟩
        · exact ⟨f, hf, hlines _ hm'⟩
      rcases P.beh q hq with hc | ⟨e, he, hm⟩
      · rcases bh5 q hc with hc | ⟨hc, hd⟩
        · rcases bh4 q hc with hc | ⟨hc, _⟩
          · obtain ⟨e, he, hm⟩ := h3.beh q hc
            exact hold e he hm
          · obtain ⟨_, e, he, hm⟩ := h3.ons q hc
            exact hold e he hm
        · rcases hd with hd | hd
          · -- it was in the group, so it was not moved
            obtain ⟨t, ht, _⟩ := (hoff q).1 hc
            have hno : q ∉ i3.ons := by
              intro hcc
              have := (h3.ons q hcc).1
              rw [has_iff.2 ⟨t, ht⟩] at this
              cases this
            rw [has_iff.2 ⟨t, by rw [sm4 q hno]; exact ht⟩] at hd
            cases hd
          · exact absurd hoffnd hd
      · exact ⟨e, he, hlines _ hm⟩
    · intro g' hgg q
      rw [P.gother g' hgg, t35.other g' hgg, h3.tog.other g' hgg, b2.groupOf, g1]
    · intro c hc q e he
      exact h3.new c hc q e (by rw [hheap3]; exact he)
    · intro c1 c2
      simp only at c1 c2
      rw [c1] at e7
      rw [c2] at e8
      cases e7
      cases e8
      rw [b9.heap, b6.heap, hheap5]
    · intro p hp
      simp only [h3.offs, List.nil_append]
      have h3p : (groupOf s3 g).has p = true := by
        rw [h3.gsame, b2.groupOf, g1]
        exact hp
      obtain ⟨t, ht⟩ := has_iff.1 h3p
      by_cases htc : t = s3.frameCount
      · subst htc
        obtain ⟨hsf, e, he, _⟩ := h3.touched p ht
        exact Or.inr ⟨e, P.kept p e (by rw [t35.heap]; exact he) (t35.safe p hsf)⟩
      · exact Or.inl ((hoff p).2 ⟨t, ht, htc⟩)
    · intro q e he hi
      refine P.kept q e (by rw [hheap5]; exact he) ?_
      intro hc
      have : some q ∈ s5.lru := (List.takeWhile_sublist _).subset hc
      obtain ⟨f, hf, hfi⟩ := (h5.lru q).1 this
      rw [hheap5, he] at hf
      cases hf
      rw [hi] at hfi
      cases hfi
    · intro hnd q t hq
      obtain ⟨e, he⟩ := h9.group_in g hq
      rcases hmem9 hnd q t e hq he with ⟨hin, hf⟩ | ⟨_, hsf, hm⟩
      · obtain ⟨f, hf', hm⟩ := hpair5 q hin
        rw [hf] at hf'
        have hef : f = e := (Option.some.inj hf').symm
        exact ⟨P.safe q (h5.fresh q e hf) (hsafe5 q hin), e, he, hef ▸ hm⟩
      · exact ⟨hsf, e, he, hlines _ hm⟩
    · intro hnd kv hkv
      have old : ∀ q e, ((groupOf s3 g).get? q = some s3.frameCount ∨ q ∈ i3.ons) → s3.heap.get? q = some e →
          e.pair = kv → ∃ q e, (groupOf s9 g).has q = true ∧ s9.heap.get? q = some e ∧ e.pair = kv := by
        intro q e hin he hp
        have h9h := P.kept q e (by rw [t35.heap]; exact he) (hsafe5 q hin)
        exact ⟨q, e, has_iff.2 ⟨_, P.gkept q _ (hfwd hnd q hin) ⟨e, h9h⟩⟩, h9h, hp⟩
      rcases h3.cover kv hkv with ⟨q, e, hq, he, hp⟩ | ⟨q, e, hq, he, hp⟩ | hc
      · exact old q e (Or.inl hq) he hp
      · exact old q e (Or.inr hq) he hp
      · obtain ⟨q, e, _, he, hp, _, hgq⟩ := P.added kv (List.mem_append.2 hc)
        exact ⟨q, e, has_iff.2 ⟨_, hgq⟩, he, hp⟩
    · intro hnd q q' e e' hq hq' he he' hp
      obtain ⟨t, hq⟩ := has_iff.1 hq
      obtain ⟨t', hq'⟩ := has_iff.1 hq'
      have oldk : ∀ f : CEntry, ∀ r, s5.heap.get? r = some f → ∃ k, s3.keymap.get? f.key = some k := by
        intro f r hf
        rw [t35.heap] at hf
        obtain ⟨k, hk, _⟩ := h3.inv.up r f hf
        exact ⟨k, hk⟩
      rcases hmem9 hnd q t e hq he with ⟨hin, hf⟩ | ⟨hn, _, hm⟩ <;>
        rcases hmem9 hnd q' t' e' hq' he' with ⟨hin', hf'⟩ | ⟨hn', _, hm'⟩
      · obtain ⟨k, hk⟩ := oldk e q hf
        have e1 : e'.key = e.key := (congrArg Prod.fst hp).symm
        have e2 : e'.val = e.val := (congrArg Prod.snd hp).symm
        rw [t35.heap] at hf hf'
        have a1 := h3.first q e k hin hf hk
        have a2 := h3.first q' e' k hin' hf' (by rw [e1]; exact hk)
        rw [e2, a1] at a2
        exact (Prod.mk.inj (Option.some.inj a2)).2
      · rw [t35.heap] at hf
        exact absurd hp (h3.new _ hm' q e hf)
      · rw [t35.heap] at hf'
        exact absurd hp.symm (h3.new _ hm q' e' hf')
      · exact P.uniq (h3.nodup2 hnd) q q' e e' hn hn' he he' hp
    · intro kv hkv
      rcases h3.cover kv hkv with ⟨q, e, _, he, hp⟩ | ⟨q, e, _, he, hp⟩ | hc
      · exact Or.inl ⟨q, e, hheap3 ▸ he, hp⟩
      · exact Or.inl ⟨q, e, hheap3 ▸ he, hp⟩
      · exact Or.inr (List.mem_append.2 hc)
    · exact h3.nodup2
    · intro c1 c2 q e he
      simp only [List.length_append, lineBytes_append] at c1 c2
      have hz : s5.stateSize = s.stateSize := by
        rw [t35.rest]
        show s3.stateSize = s.stateSize
        rw [h3.tog.rest]
        exact b2.size.trans z1
      have hv : s5.numVals = s.numVals := by rw [h5.nums, hs.inv.nums, hheap5]
      have z6 := b6.size
      have v6 := b6.nums
      have x6 := b6.maxS
      have y6 := b6.maxV
      have g7 := cloneLoop_grow i3.clones e7 (by omega) (by omega)
      have := g7.nums
      have := g7.size
      have := g7.maxV
      have := g7.maxS
      have g8 := kvstoLoop_grow i3.kvstos e8 (by omega) (by omega)
      rw [b9.heap]
      obtain ⟨f, hf⟩ := g7.heap q e (by rw [b6.heap, hheap5]; exact he)
      exact g8.heap q f hf

/-! ### After writing -/

theorem Inv.unpin {s : Codec} {refs : Str → Nat} (h : Inv s refs) :
    Inv { s with lru := s.lru.erase none, pinned := false } refs := by
  refine ⟨h.kwf, h.hwf, h.fresh, h.up, h.down, h.vnd, h.refc, h.refk, h.lnd.erase _, ?_, ?_, h.gwf, h.gin, h.grp, h.size,
    h.nums⟩
  · intro p
    simp only [h.lnd.mem_erase_iff]
    rw [← h.lru p]
    simp
  · simp [h.lnd.mem_erase_iff]

/-- The headers a group shows. -/
def shows (s : Codec) (g : Nat) : List (Str × Str) :=
  (groupOf s g).filterMap fun x => (s.heap.get? x.1).map CEntry.pair

theorem mem_shows {s : Codec} {refs : Str → Nat} (h : Inv s refs) (g : Nat) (kv : Str × Str) :
    kv ∈ shows s g ↔ ∃ q e, (groupOf s g).has q = true ∧ s.heap.get? q = some e ∧ e.pair = kv := by
  unfold shows
  rw [List.mem_filterMap]
  constructor
  · rintro ⟨⟨q, t⟩, hm, hq⟩
    cases he : s.heap.get? q with
    | none => simp [he] at hq
    | some e =>
      simp only [he, Option.map_some, Option.some.injEq] at hq
      exact ⟨q, e, has_iff.2 ⟨t, (Dict.mem_iff_get? (h.group_wf g)).1 hm⟩, he, hq⟩
  · rintro ⟨q, e, hq, he, rfl⟩
    obtain ⟨t, ht⟩ := has_iff.1 hq
    exact ⟨(q, t), Dict.get?_mem ht, by simp [he]⟩

theorem nodup_filterMap_of {α β : Type} (l : List α) (f : α → Option β) (hnd : l.Nodup)
    (hinj : ∀ a ∈ l, ∀ a' ∈ l, ∀ b, f a = some b → f a' = some b → a = a') : (l.filterMap f).Nodup := by
  induction l with
  | nil => simp
  | cons a l ih =>
    obtain ⟨h1, h2⟩ := List.nodup_cons.1 hnd
    have ih := ih h2 (fun x hx y hy => hinj x (by simp [hx]) y (by simp [hy]))
    rw [List.filterMap_cons]
    cases hf : f a with
    | none => exact ih
    | some b =>
      simp only
      rw [List.nodup_cons]
      refine ⟨?_, ih⟩
      intro hc
      obtain ⟨x, hx, hb⟩ := List.mem_filterMap.1 hc
      have := hinj a (by simp) x (by simp [hx]) b hf hb
      exact h1 (this ▸ hx)

theorem shows_perm {s : Codec} {refs : Str → Nat} (h : Inv s refs) {g : Nat} {L : List (Str × Str)} (hL : L.Nodup)
    (h1 : ∀ q, (groupOf s g).has q = true → ∃ e, s.heap.get? q = some e ∧ e.pair ∈ L)
    (h2 : ∀ kv ∈ L, ∃ q e, (groupOf s g).has q = true ∧ s.heap.get? q = some e ∧ e.pair = kv)
    (h3 : ∀ q q' e e', (groupOf s g).has q = true → (groupOf s g).has q' = true → s.heap.get? q = some e →
      s.heap.get? q' = some e' → e.pair = e'.pair → q = q') : (shows s g).Perm L := by
  have hnd : (groupOf s g).Nodup := List.Nodup.of_map _ (h.group_wf g)
  refine (List.perm_ext_iff_of_nodup ?_ hL).2 ?_
  · refine nodup_filterMap_of _ _ hnd ?_
    rintro ⟨q, t⟩ hq ⟨q', t'⟩ hq' b hb hb'
    have a1 := (Dict.mem_iff_get? (h.group_wf g)).1 hq
    have a2 := (Dict.mem_iff_get? (h.group_wf g)).1 hq'
    cases he : s.heap.get? q with
    | none => simp [he] at hb
    | some e =>
      cases he' : s.heap.get? q' with
      | none => simp [he'] at hb'
      | some e' =>
        simp only [he, Option.map_some, Option.some.injEq] at hb
        simp only [he', Option.map_some, Option.some.injEq] at hb'
        have : q = q' := h3 q q' e e' (has_iff.2 ⟨t, a1⟩) (has_iff.2 ⟨t', a2⟩) he he' (hb.trans hb'.symm)
        subst this
        rw [a1] at a2
        cases a2
        rfl
  · intro kv
    rw [mem_shows h]
    constructor
    · rintro ⟨q, e, hq, he, rfl⟩
      obtain ⟨e', he', hm⟩ := h1 q hq
      rw [he] at he'
      cases he'
      exact hm
    · exact h2 kv

/-- What holds after a frame with the lines `L`. -/
structure Done (s s' : Codec) (g : Nat) (L : List (Str × Str)) : Prop where
  idle : Idle s'
  maxS : s'.maxState = s.maxState
  maxV : s'.maxVals = s.maxVals
  shown : L.Nodup → (shows s' g).Perm L
  limits : (s'.numVals ≤ s'.maxVals ∧ s'.stateSize ≤ s'.maxState) ∨
    ∀ q e, s'.heap.get? q = some e → e.inLru = true → e.pair ∈ L
  kept : ∀ q e, s.heap.get? q = some e → e.inLru = false → s'.heap.get? q = some e
  other : ∀ g', g' ≠ g → ∀ q, (groupOf s' g').has q = true → (groupOf s g').has q = true

theorem frame_end {s s' : Codec} {g : Nat} {L : List (Str × Str)} {i : CInstrs} (R : Staged s s' g L i) :
    ∃ s'', unPinLruEnd { s' with frameCount := s'.frameCount + 1 } = .ok s'' ∧ Done s s'' g L := by
  have h1 : Inv { s' with frameCount := s'.frameCount + 1 } (fun _ => 0) :=
    ⟨R.inv.kwf, R.inv.hwf, R.inv.fresh, R.inv.up, R.inv.down, R.inv.vnd, R.inv.refc, R.inv.refk, R.inv.lnd, R.inv.lru,
      R.inv.pin, R.inv.gwf, R.inv.gin, R.inv.grp, R.inv.size, R.inv.nums⟩
  obtain ⟨s2, ps, e2, h2, v2, hroom, _⟩ := makeSpace_spec 0 0 h1 (Or.inl R.pinned)
  have P := v2.toEvict.prog h1 g
  have hnew : ∀ q e, s2.heap.get? q = some e → s'.heap.get? q = some e := by
    intro q e he
    rcases P.old q e he with hc | ⟨_, _, hc⟩
    · exact hc
    · cases hc
  have hgold : ∀ q t, (groupOf s2 g).get? q = some t → (groupOf s' g).get? q = some t := by
    intro q t hq
    rcases P.gold q t hq with hc | ⟨hc, _⟩
    · exact hc
    · obtain ⟨e, he⟩ := h2.group_in g hq
      have := h1.fresh q e (hnew q e he)
      simp only at hc this
      omega
  have hother : ∀ g', g' ≠ g → ∀ q, (groupOf s2 g').get? q = if s2.heap.has q then (groupOf s' g').get? q else none :=
    P.gother
  refine ⟨{ s2 with lru := s2.lru.erase none, pinned := false }, ?_, ?_⟩
  · unfold unPinLruEnd
    rw [if_neg (by simpa using R.pinned), e2]
    rfl
  constructor
  · refine ⟨h2.unpin, rfl, ?_⟩
    intro g' q t hq
    have hq : (groupOf s2 g').get? q = some t := hq
    show t < s2.frameCount
    rw [v2.fc]
    show t < s'.frameCount + 1
    rw [R.fc]
    by_cases hgg : g' = g
    · subst hgg
      have := R.gens g' q t (hgold q t hq)
      omega
    · rw [hother g' hgg] at hq
      split at hq
      · have := R.gens g' q t hq
        omega
      · cases hq
  · exact v2.maxS.trans R.maxS
  · exact v2.maxV.trans R.maxV
  · intro hnd
    refine shows_perm h2.unpin hnd ?_ ?_ ?_
    · intro q hq
      obtain ⟨t, ht⟩ := has_iff.1 hq
      obtain ⟨hsf, e, he, hm⟩ := R.shown hnd q t (hgold q t ht)
      exact ⟨e, P.kept q e he hsf, hm⟩
    · intro kv hkv
      obtain ⟨q, e, hq, he, hp⟩ := R.cover hnd kv hkv
      obtain ⟨t, ht⟩ := has_iff.1 hq
      have hsf := (R.shown hnd q t ht).1
      have hk := P.kept q e he hsf
      exact ⟨q, e, has_iff.2 ⟨t, P.gkept q t ht ⟨e, hk⟩⟩, hk, hp⟩
    · intro q q' e e' hq hq' he he' hp
      obtain ⟨t, ht⟩ := has_iff.1 hq
      obtain ⟨t', ht'⟩ := has_iff.1 hq'
      exact R.uniq hnd q q' e e' (has_iff.2 ⟨t, hgold q t ht⟩) (has_iff.2 ⟨t', hgold q' t' ht'⟩)
        (hnew q e he) (hnew q' e' he') hp
  · rcases hroom with hr | hr
    · exact Or.inl hr
    · refine Or.inr ?_
      intro q e he hi
      have he : s2.heap.get? q = some e := he
      have hmem : some q ∈ s2.lru := (h2.lru q).2 ⟨e, he, hi⟩
      have hsplit : s2.lru = ev s2 ++ beh s2 := (List.takeWhile_append_dropWhile).symm
      rw [hsplit, hr, List.nil_append, v2.toEvict.beh] at hmem
      obtain ⟨f, hf, hm⟩ := R.beh q hmem
      rw [hnew q e he] at hf
      cases hf
      exact hm
  · intro q e he hi
    refine P.kept q e (R.kept q e he hi) ?_
    intro hc
    have : some q ∈ s'.lru := (List.takeWhile_sublist _).subset hc
    obtain ⟨f, hf, hfi⟩ := (R.inv.lru q).1 this
    rw [R.kept q e he hi] at hf
    cases hf
    rw [hi] at hfi
    cases hfi
  · intro g' hgg q hq
    obtain ⟨t, ht⟩ := has_iff.1 hq
    have ht : (groupOf s2 g').get? q = some t := ht
    rw [hother g' hgg] at ht
    split at ht
    · rw [R.other g' hgg] at ht
      split at ht
      · exact has_iff.2 ⟨t, ht⟩
      · cases ht
    · cases ht

/-! ### The constructor -/

theorem kvstoLoop_zero (cs : List (Str × Str)) {s : Codec} (h : Inv s (fun _ => 0)) (hp : s.pinned = false)
    (hl : s.lru = []) (hg : ∀ g, s.groups.get? g = none)
    (hn : s.numVals + cs.length ≤ s.maxVals)
    (hz : s.stateSize + (cs.map fun c => c.1.length + c.2.length).sum ≤ s.maxState) :
    ∃ s', kvstoLoop s 0 cs = .ok s' ∧ Idle s' ∧ s'.maxState = s.maxState ∧ s'.maxVals = s.maxVals ∧ s'.lru = [] ∧
      (∀ q e, s.heap.get? q = some e → s'.heap.get? q = some e) ∧
      ∀ c ∈ cs, ∃ q e, s'.heap.get? q = some e ∧ e.pair = c ∧ e.inLru = false := by
  induction cs generalizing s with
  | nil =>
    refine ⟨s, rfl, ⟨h, hp, ?_⟩, rfl, rfl, hl, fun _ _ he => he, by simp⟩
    intro g q t hq
    unfold groupOf at hq
    rw [hg] at hq
    cases hq
  | cons c cs ih =>
    simp only [List.length_cons, List.map_cons, List.sum_cons] at hn hz
    have r1 : Room s c.1.length 0 := ⟨by omega, by omega⟩
    obtain ⟨s1, ps, e1, h1, v1, hk, hr⟩ := findOrAddKey_spec c.1 h (Or.inr r1)
    obtain ⟨hr1, hr2⟩ := hr r1
    have r2 : Room s1 c.2.length 1 := by
      constructor
      · rw [v1.maxV]; omega
      · rw [v1.maxS]; omega
    obtain ⟨s2, qs, e2, h2, v2, g2, hr⟩ := insertVal_spec c.2 h1 hk (Or.inr r2)
    obtain ⟨hr3, hr4⟩ := hr r2
    have hps : ps = [] ∧ s1.lru = [] := by
      have := v1.lru
      rw [hl] at this
      have := List.append_eq_nil_iff.1 this.symm
      exact ⟨List.map_eq_nil_iff.1 this.1, this.2⟩
    have hqs : qs = [] ∧ s2.lru = [] := by
      obtain ⟨mid, m1, m2⟩ := v2.lru
      rw [hps.2] at m1
      have := List.append_eq_nil_iff.1 m1.symm
      refine ⟨List.map_eq_nil_iff.1 this.1, ?_⟩
      rw [m2, this.2]
      simp
    obtain ⟨en, hen, enk, env, eni⟩ := v2.new
    have hold : ∀ q e, s.heap.get? q = some e → s2.heap.get? q = some e := by
      intro q e he
      have := h.fresh q e he
      rw [v2.heap q (by rw [v1.nextPtr]; omega), hqs.1, v1.heap, hps.1]
      simpa using he
    obtain ⟨s3, e3, h3, a3, b3, l3, k3, d3⟩ := ih h2 (v2.pinned.trans (v1.pinned.trans hp)) hqs.2
      (by
        intro g
        rw [g2, v1.grp, hg]
        rfl)
      (by rw [v2.maxV, v1.maxV]; omega) (by rw [v2.maxS, v1.maxS]; omega)
    refine ⟨s3, ?_, h3, a3.trans (v2.maxS.trans v1.maxS), b3.trans (v2.maxV.trans v1.maxV), l3,
      fun q e he => k3 q e (hold q e he), ?_⟩
    · simp only [kvstoLoop, executeKVSto, addLine, e1, e2, bind, Except.bind, gt_iff_lt, Nat.lt_irrefl, if_false, e3]
    · intro c' hc'
      rcases List.mem_cons.1 hc' with rfl | hc'
      · exact ⟨_, en, k3 _ en hen, by simp [CEntry.pair, enk, env], eni⟩
      · exact d3 c' hc'

theorem inv_empty : Inv Codec.empty (fun _ => 0) := by
  refine ⟨List.nodup_singleton _, Dict.wf_nil, ?_, ?_, ?_, ?_, ?_, ?_, List.nodup_nil, ?_, by simp [Codec.empty], Dict.wf_nil, ?_, ?_, rfl,
    rfl⟩
  · intro p e he
    cases he
  · intro p e he
    cases he
  · intro key k hk v p hv
    simp only [Codec.empty, Dict.get?_cons, Dict.get?_nil] at hk
    split at hk
    · cases hk; cases hv
    · cases hk
  · intro key k hk
    simp only [Codec.empty, Dict.get?_cons, Dict.get?_nil] at hk
    split at hk
    · cases hk; exact List.nodup_nil
    · cases hk
  · intro key k hk
    simp only [Codec.empty, Dict.get?_cons, Dict.get?_nil] at hk
    split at hk
    · cases hk; rfl
    · cases hk
  · intro key hr
    simp at hr
  · intro p
    simp [Codec.empty]
  · intro g G hG
    cases hG
  · intro g G hG
    cases hG

/-- The constructor. -/
theorem start_spec (defaults : List (Str × Str)) (hn : defaults.length ≤ 1024)
    (hz : (defaults.map fun c => c.1.length + c.2.length).sum ≤ 65536) :
    ∃ s, Codec.start defaults = .ok s ∧ Idle s ∧ s.maxState = 65536 ∧ s.maxVals = 1024 ∧
      ∀ c ∈ defaults, ∃ q e, s.heap.get? q = some e ∧ e.pair = c ∧ e.inLru = false := by
  obtain ⟨s, e, hi, h1, h2, _, _, h3⟩ := kvstoLoop_zero defaults inv_empty rfl rfl (fun _ => rfl)
    (by simpa [Codec.empty] using hn) (by simpa [Codec.empty] using hz)
  exact ⟨s, e, hi, h1, h2, h3⟩

end Verif.Cpp
