import Verif.Delta2Bohe.FindLemmas
/-
delta2_bohe: a message with one header, again and again.
-/
namespace Verif.Delta2Bohe
open Verif Verif.Delta2Bohe.Spec

theorem sizeSum_le (l : List Entry) (m : Nat) (h : ∀ e ∈ l, e.size ≤ m) : sizeSum l ≤ m * l.length := by
  induction l with
  | nil => simp
  | cons e l ih =>
    have h1 := ih fun x hx => h x (by simp [hx])
    have h2 := h e (by simp)
    rw [sizeSum_cons, List.length_cons, Nat.mul_add, Nat.mul_one]
    omega

/-- The storage after `T` times the same small header. -/
theorem holds_replicate {s : Lru} {x : Hdr} {T n : Nat} (hx : x.1.length + x.2.length ≤ 16) (h : Holds s (List.replicate T x) n) : n = T - 1024 := by
  have hle := h.le
  have hf := h.fits.1
  rw [h.ring, List.length_drop, entriesOf_length, List.length_replicate] at hf
  rw [List.length_replicate] at hle
  by_contra hne
  refine h.most (T - 1024) (by omega) ⟨?_, ?_⟩
  · rw [List.length_drop, entriesOf_length, List.length_replicate]; omega
  · refine (sizeSum_le _ 16 ?_).trans ?_
    · intro e he
      obtain ⟨y, hy, rfl⟩ := List.mem_map.1 (List.mem_of_mem_drop he)
      have := List.eq_of_mem_replicate (List.fst_mem_of_mem_zipIdx hy)
      simp only [Entry.size, this]
      omega
    · rw [List.length_drop, entriesOf_length, List.length_replicate]; omega

/-- The state after `t` messages, `t` not 0. -/
structure After (gid : Nat) (k e : Str) (t : Nat) (c : Codec) : Prop where
  static : c.static = staticLru
  lru : Holds c.lru (List.replicate (t + 1) (k, e)) (t + 1 - 1024)
  groups : if t % 1024 = 0 then c.groups = [] else ∃ γ, c.groups = [(gid, ⟨[(numberOf (1024 * (t / 1024)), γ)], γ + 1⟩)]

theorem numberOf_inj {i j : Nat} (hi : i < 65472) (hj : j < 65472) : numberOf i = numberOf j ↔ i = j := by
  unfold numberOf
  rw [Nat.mod_eq_of_lt hi, Nat.mod_eq_of_lt hj]
  omega

theorem After.lookup {gid : Nat} {k e : Str} {t : Nat} {s : Lru} {st : Lru} {gs : Dict Nat Group} (hst : st = staticLru)
    (h : Holds s (List.replicate (t + 1) (k, e)) (t + 1 - 1024)) (j : Nat) (h1 : t + 1 - 1024 ≤ j) (h2 : j < t + 1) :
    lookupFromIdx ⟨st, s, gs⟩ (numberOf j) = if j / 65472 = (t + 1 - 1024) / 65472 then .ok ⟨k, e, numberOf j⟩
      else if j + 64 < t + 1 then .ok ⟨k, e, numberOf (j + 64)⟩ else .error .index := by
  have := holds_lookup h j h1 (by simpa using h2)
  have hge : ¬ numberOf j < st.ring.length := by rw [hst, static_len]; unfold numberOf; omega
  rw [lookupFromIdx, if_neg hge, this]
  simp

theorem entriesOf_replicate {k e : Str} {a T : Nat} (h : a < T) : (entriesOf (List.replicate T (k, e)))[a]? = some ⟨k, e, numberOf a⟩ := by
  simp [entriesOf, List.getElem?_zipIdx, List.getElem?_replicate, h]

/-- What the adjustment does when the group has one entry. -/
theorem adjust_one {gid : Nat} {k e : Str} {t : Nat} {c : Codec} {i γ δ : Nat} (hx : k.length + e.length ≤ 16)
    (hl : Holds c.lru (List.replicate (t + 1) (k, e)) (t + 1 - 1024)) (hg : c.groups = [(gid, ⟨[(i, γ)], δ⟩)])
    (hlook : lookupFromIdx c i = .ok ⟨k, e, i⟩) :
    ∃ s', adjust c gid = .ok { c with lru := s', groups := if 1024 ≤ t + 1 ∧ numberOf (t + 1 - 1024) = i then [] else c.groups } ∧
      Holds s' (List.replicate (t + 2) (k, e)) (t + 2 - 1024) := by
  obtain ⟨n', s', p, hn, e1, hp, h'⟩ := insertVal_holds hl k e (by omega)
  rw [← List.replicate_succ', show t + 1 + 1 = t + 2 from rfl] at h'
  have hn' := holds_replicate hx h'
  rw [hn'] at hp h'
  clear hn'
  refine ⟨s', ?_, h'⟩
  have hgrp : theGroup c gid = .ok ⟨[(i, γ)], δ⟩ := by simp [theGroup, hg, Dict.get?]
  have hsort : Huff.sortBy (fun a b => decide (a ≤ b)) (Dict.keys [(i, γ)]) = [i] := rfl
  simp only [adjust, hgrp, hsort, lookupAll, hlook, bind, Except.bind, pure, Except.pure, insertAll, e1]
  congr 2
  rw [hp]
  by_cases ht : 1024 ≤ t + 1
  · have h1 : t + 2 - 1024 - (t + 1 - 1024) = 1 := by omega
    have h2 : ((entriesOf (List.replicate (t + 1) (k, e))).drop (t + 1 - 1024)).take 1 = [⟨k, e, numberOf (t + 1 - 1024)⟩] := by
      have hget : (entriesOf (List.replicate (t + 1) (k, e)))[t + 1 - 1024]? = some ⟨k, e, numberOf (t + 1 - 1024)⟩ := by
        exact entriesOf_replicate (by omega)
      rw [List.take_one, List.head?_drop, hget]
      rfl
    rw [h1, h2]
    simp only [List.foldl_cons, List.foldl_nil, hg, removeVIdx, List.map_cons, List.map_nil, Dict.del, ht, true_and]
    generalize numberOf (t + 1 - 1024) = a
    by_cases hi : a = i
    · simp [hi]
    · simp [hi, Ne.symm hi]
  · have h1 : t + 2 - 1024 - (t + 1 - 1024) = 0 := by omega
    rw [h1]
    simp [ht]

/-- One message, the state and the operations. -/
theorem one_step {enc : Str → Str → Py Str} {o : Orders} {c : Codec} {gid : Nat} {k v e : Str} (hk : k ≠ b!"cookie") (henc : enc k v = .ok e) :
    makeBody enc o c [(k, v)] gid = (do
      let (c, g) ← processKV o.has gid k e (findOrMake c gid) {}
      let c ← executeInstrs gid c g
      let c := findOrMake c gid
      let grp ← theGroup c gid
      let off := turnOffs o.old grp
      let c ← toggleAll gid off c
      let grp ← theGroup c gid
      pure ({ c with groups := c.groups.set gid { grp with generation := grp.generation + 1 } }, { g with toggl := g.toggl ++ off })) := by
  simp only [makeBody, headersLoop, if_neg hk, henc, bind, Except.bind, pure, Except.pure]
  cases processKV o.has gid k e (findOrMake c gid) {} <;> rfl

/-- The group has the header. -/
theorem body_touch {enc : Str → Str → Py Str} {o : Orders} (ho : ∀ l, (o.has l).Perm l) (ho' : ∀ l, (o.old l).Perm l) {c : Codec} {gid : Nat}
    {k v e : Str} (hk : k ≠ b!"cookie") (henc : enc k v = .ok e) {i γ : Nat} (hg : c.groups = [(gid, ⟨[(i, γ)], γ + 1⟩)])
    (hlook : lookupFromIdx c i = .ok ⟨k, e, i⟩) :
    makeBody enc o c [(k, v)] gid = .ok ({ c with groups := [(gid, ⟨[(i, γ + 1)], γ + 1 + 1⟩)] }, {}) := by
  have h1 : findOrMake c gid = c := by simp [findOrMake, hg, Dict.has, Dict.get?]
  have h2 : o.has [i] = [i] := List.perm_singleton.1 (ho [i])
  have h3 : o.old [i] = [i] := List.perm_singleton.1 (ho' [i])
  rw [one_step hk henc, h1]
  have h4 : theGroup c gid = .ok ⟨[(i, γ)], γ + 1⟩ := by simp [theGroup, hg, Dict.get?]
  have h5 : touch c gid i = { c with groups := [(gid, ⟨[(i, γ + 1)], γ + 1⟩)] } := by
    simp [touch, h1, hg, Dict.get?, Dict.set]
  have h6 : processKV o.has gid k e c {} = .ok ({ c with groups := [(gid, ⟨[(i, γ + 1)], γ + 1⟩)] }, {}) := by
    simp [processKV, hasKV, h4, findInGroup, Dict.keys, h2, hlook, bind, Except.bind, pure, Except.pure, h5]
  simp [h6, Dict.keys, bind, Except.bind, pure, Except.pure, executeInstrs, toggleAll, translate, storeEntries, findOrMake, Dict.has, Dict.get?, theGroup, turnOffs, h3, Dict.set]

/-- The group has gone, and the header is found. -/
theorem body_found {enc : Str → Str → Py Str} {o : Orders} (ho : ∀ l, (o.has l).Perm l) (ho' : ∀ l, (o.old l).Perm l) {c : Codec} {gid : Nat}
    {k v e : Str} (hk : k ≠ b!"cookie") (henc : enc k v = .ok e) {i : Nat} (hg : c.groups = []) (hf : ∀ gs, (findEntryIdx { c with groups := gs } k e).2 = some i) :
    makeBody enc o c [(k, v)] gid = .ok ({ c with groups := [(gid, ⟨[(i, 0)], 1⟩)] }, { toggl := [i] }) := by
  have h1 : findOrMake c gid = { c with groups := [(gid, {})] } := by simp [findOrMake, hg, Dict.has, Dict.get?, Dict.set]
  have h2 : o.has [] = [] := List.perm_nil.1 (ho [])
  have h3 : o.old [i] = [i] := List.perm_singleton.1 (ho' [i])
  rw [one_step hk henc, h1]
  have h4 : ∃ a, findEntryIdx { c with groups := [(gid, {})] } k e = (a, some i) := ⟨_, Prod.ext rfl (hf _)⟩
  obtain ⟨a, h4⟩ := h4
  simp [processKV, hasKV, theGroup, findInGroup, Dict.keys, h2, bind, Except.bind, pure, Except.pure, h4, executeInstrs, toggleAll, toggle, translate, storeEntries,
    findOrMake, Dict.has, Dict.get?, turnOffs, h3, Dict.set]

theorem step_some {enc : Str → Str → Py Str} {o : Orders} (ho : ∀ l, (o.has l).Perm l) (ho' : ∀ l, (o.old l).Perm l) {c : Codec} {gid t : Nat}
    {k v e : Str} (hk : k ≠ b!"cookie") (henc : enc k v = .ok e) (hx : k.length + e.length ≤ 16) (h : After gid k e t c) (ht : t < 65536) (h0 : t % 1024 ≠ 0) :
    ∃ c', makeOperations enc o c [(k, v)] gid = .ok (c', {}) ∧ After gid k e (t + 1) c' := by
  obtain ⟨hst, hl, hg⟩ := h
  rw [if_neg h0] at hg
  obtain ⟨γ, hg⟩ := hg
  have hlook : ∀ gs, lookupFromIdx { c with groups := gs } (numberOf (1024 * (t / 1024))) = .ok ⟨k, e, numberOf (1024 * (t / 1024))⟩ := by
    intro gs
    rw [After.lookup (gid := gid) (gs := gs) hst hl _ (by omega) (by omega), if_pos (by omega)]
  have hb := body_touch ho ho' hk henc hg (hlook c.groups)
  obtain ⟨s', ha, hl'⟩ := adjust_one (c := { c with groups := [(gid, ⟨[(numberOf (1024 * (t / 1024)), γ + 1)], γ + 1 + 1⟩)] }) hx hl rfl (hlook _)
  refine ⟨{ c with lru := s', groups := if 1024 ≤ t + 1 ∧ numberOf (t + 1 - 1024) = numberOf (1024 * (t / 1024)) then [] else [(gid, ⟨[(numberOf (1024 * (t / 1024)), γ + 1)], γ + 1 + 1⟩)] },
    by simp only [makeOperations, hb, ha, bind, Except.bind, pure, Except.pure], hst, hl', ?_⟩
  · simp only
    by_cases h1 : (t + 1) % 1024 = 0
    · rw [if_pos h1, if_pos ⟨by omega, (numberOf_inj (by omega) (by omega)).2 (by omega)⟩]
    · rw [if_neg h1, if_neg]
      · refine ⟨γ + 1, ?_⟩
        rw [show (t + 1) / 1024 = t / 1024 by omega]
      · rintro ⟨h2, h3⟩
        rw [numberOf_inj (by omega) (by omega)] at h3
        omega

theorem step_none_body {enc : Str → Str → Py Str} {o : Orders} (ho : ∀ l, (o.has l).Perm l) (ho' : ∀ l, (o.old l).Perm l) {c : Codec} {gid t : Nat}
    {k v e : Str} (hk : k ≠ b!"cookie") (henc : enc k v = .ok e) (h : After gid k e t c) (h1 : 0 < t) (h0 : t % 1024 = 0) :
    makeBody enc o c [(k, v)] gid = .ok ({ c with groups := [(gid, ⟨[(numberOf t, 0)], 1⟩)] }, { toggl := [numberOf t] }) := by
  obtain ⟨hst, hl, hg⟩ := h
  rw [if_pos h0] at hg
  refine body_found ho ho' hk henc hg fun gs => ?_
  have hr := hl.ringOf
  rw [(findEntryIdx_newest (c := { c with groups := gs }) hr hst k e (numberOf t)).2, List.drop_replicate]
  refine Or.inl ⟨1023, ⟨by omega, ⟨e, ?_⟩, ?_⟩, ?_, ?_⟩
  · rw [List.getElem?_replicate, if_pos (by omega)]
  · intro i hi v
    rw [List.getElem?_replicate, if_neg (by omega)]
    simp
  · rw [List.getElem?_replicate, if_pos (by omega)]
  · show numberOf t = numberOf (t + 1 - 1024 + 1023)
    congr 1
    omega

theorem step_none {enc : Str → Str → Py Str} {o : Orders} (ho : ∀ l, (o.has l).Perm l) (ho' : ∀ l, (o.old l).Perm l) {c : Codec} {gid t : Nat}
    {k v e : Str} (hk : k ≠ b!"cookie") (henc : enc k v = .ok e) (hx : k.length + e.length ≤ 16) (h : After gid k e t c) (ht : t < 65536) (h1 : 0 < t)
    (h0 : t % 1024 = 0) :
    ∃ c', makeOperations enc o c [(k, v)] gid = .ok (c', { toggl := [numberOf t] }) ∧ After gid k e (t + 1) c' := by
  have hb := step_none_body ho ho' hk henc h h1 h0
  obtain ⟨hst, hl, -⟩ := h
  have hlook : ∀ gs, lookupFromIdx { c with groups := gs } (numberOf t) = .ok ⟨k, e, numberOf t⟩ := by
    intro gs
    rw [After.lookup (gid := gid) (gs := gs) hst hl _ (by omega) (by omega), if_pos (by omega)]
  obtain ⟨s', ha, hl'⟩ := adjust_one (c := { c with groups := [(gid, ⟨[(numberOf t, 0)], 1⟩)] }) hx hl rfl (hlook _)
  refine ⟨{ c with lru := s', groups := if 1024 ≤ t + 1 ∧ numberOf (t + 1 - 1024) = numberOf t then [] else [(gid, ⟨[(numberOf t, 0)], 1⟩)] },
    by simp only [makeOperations, hb, ha, bind, Except.bind, pure, Except.pure], hst, hl', ?_⟩
  · simp only
    rw [if_neg (by omega), if_neg]
    · refine ⟨0, ?_⟩
      rw [show 1024 * ((t + 1) / 1024) = t by omega]
    · rintro ⟨h2, h3⟩
      rw [numberOf_inj (by omega) (by omega)] at h3
      omega

/-- The message after 65536. -/
theorem step_last {enc : Str → Str → Py Str} {o : Orders} (ho : ∀ l, (o.has l).Perm l) (ho' : ∀ l, (o.old l).Perm l) {c : Codec} {gid t : Nat}
    {k v e : Str} (hk : k ≠ b!"cookie") (henc : enc k v = .ok e) (h : After gid k e t c) (ht : t = 65536) :
    makeOperations enc o c [(k, v)] gid = .error .index := by
  have hb := step_none_body ho ho' hk henc h (by omega) (by omega)
  obtain ⟨hst, hl, -⟩ := h
  have hlook : ∀ gs, lookupFromIdx { c with groups := gs } (numberOf t) = .error .index := by
    intro gs
    rw [After.lookup (gid := gid) (gs := gs) hst hl _ (by omega) (by omega), if_neg (by omega), if_neg (by omega)]
  have hgrp : theGroup { c with groups := [(gid, (⟨[(numberOf t, 0)], 1⟩ : Group))] } gid = .ok ⟨[(numberOf t, 0)], 1⟩ := by simp [theGroup, Dict.get?]
  have hsort : Huff.sortBy (fun a b => decide (a ≤ b)) (Dict.keys [(numberOf t, 0)]) = [numberOf t] := rfl
  simp only [makeOperations, hb, adjust, hgrp, hsort, lookupAll, hlook, bind, Except.bind]

/-- The first message. -/
theorem step_first {enc : Str → Str → Py Str} {o : Orders} (ho : ∀ l, (o.has l).Perm l) (ho' : ∀ l, (o.old l).Perm l) {gid : Nat}
    {k v e : Str} (hk : k ≠ b!"cookie") (henc : enc k v = .ok e) (hx : k.length + e.length ≤ 16) (hn : ∀ j, ¬ Newest defaultKvs k j) :
    ∃ c', makeOperations enc o ⟨staticLru, lru0, []⟩ [(k, v)] gid = .ok (c', { kvsto := [(k, e, decide (k ∉ Bohe.encoderNames))] }) ∧ After gid k e 1 c' := by
  have hf : ∀ gs, findEntryIdx ⟨staticLru, lru0, gs⟩ k e = (none, none) := by
    intro gs
    have hr : RingOf (Codec.mk staticLru lru0 gs).lru.ring [] (fun j => j) := rfl
    have key := findEntryIdx_newest (c := ⟨staticLru, lru0, gs⟩) hr rfl k e
    have nn : ∀ j, ¬ Newest [] k j := by rintro j ⟨-, ⟨v, hv⟩, -⟩; simp at hv
    refine Prod.ext ?_ ?_
    · cases hh : (findEntryIdx ⟨staticLru, lru0, gs⟩ k e).1 with
      | none => rfl
      | some i =>
        rcases ((key i).1.1 hh) with ⟨j, hj, -⟩ | ⟨-, hj⟩
        · exact absurd hj (nn j)
        · exact absurd hj (hn i)
    · cases hh : (findEntryIdx ⟨staticLru, lru0, gs⟩ k e).2 with
      | none => rfl
      | some i =>
        rcases ((key i).2.1 hh) with ⟨j, hj, -⟩ | ⟨-, hj, -⟩
        · exact absurd hj (nn j)
        · exact absurd hj (hn i)
  have h2 : o.has [] = [] := List.perm_nil.1 (ho [])
  have h3 : o.old [numberOf 0] = [numberOf 0] := List.perm_singleton.1 (ho' [numberOf 0])
  obtain ⟨n', s', p, hn', e1, hp, h'⟩ := insertVal_holds (c := ⟨staticLru, lru0, [(gid, {})]⟩) lru0_holds k e (by omega)
  have hp0 : p = [] := by rw [hp]; simp [entriesOf]
  subst hp0
  have h0 := holds_replicate (x := (k, e)) (T := 1) hx h'
  have hb : makeBody enc o ⟨staticLru, lru0, []⟩ [(k, v)] gid = .ok (⟨staticLru, s', [(gid, ⟨[(numberOf 0, 0)], 1⟩)]⟩,
      { kvsto := [(k, e, decide (k ∉ Bohe.encoderNames))] }) := by
    rw [one_step hk henc]
    have e1' : insertVal ⟨staticLru, lru0, [(gid, {})]⟩ k e = .ok (⟨staticLru, s', [(gid, {})]⟩, numberOf 0) := e1
    simp [processKV, hasKV, theGroup, findInGroup, Dict.keys, h2, bind, Except.bind, pure, Except.pure, hf, executeInstrs, toggleAll, translate, storeEntries,
      storeEntry, e1', touch, findOrMake, Dict.has, Dict.get?, turnOffs, h3, Dict.set]
  have hl : Holds s' (List.replicate (0 + 1) (k, e)) (0 + 1 - 1024) := by
    have h0' : n' = 0 := by omega
    subst h0'
    exact h'
  have hlook : ∀ gs, lookupFromIdx ⟨staticLru, s', gs⟩ (numberOf 0) = .ok ⟨k, e, numberOf 0⟩ := by
    intro gs
    rw [After.lookup (gid := gid) (gs := gs) rfl hl _ (by omega) (by omega), if_pos (by omega)]
  obtain ⟨s'', ha, hl'⟩ := adjust_one (c := ⟨staticLru, s', [(gid, ⟨[(numberOf 0, 0)], 1⟩)]⟩) hx hl rfl (hlook _)
  refine ⟨⟨staticLru, s'', if 1024 ≤ 0 + 1 ∧ numberOf (0 + 1 - 1024) = numberOf 0 then [] else [(gid, ⟨[(numberOf 0, 0)], 1⟩)]⟩,
    by simp only [makeOperations, hb, ha, bind, Except.bind, pure, Except.pure], rfl, hl', ?_⟩
  · simp only
    rw [if_neg (by omega), if_neg (by omega)]
    exact ⟨0, rfl⟩

end Verif.Delta2Bohe
