import Verif.Delta2Bohe.LruLemmas
/- Lemmas about the header groups of delta2_bohe. -/
namespace Verif.Delta2Bohe
open Verif

/-- The index is in the group. -/
def InG (gs : Dict Nat Group) (gid i : Nat) : Prop := ∃ g n, gs.get? gid = some g ∧ g.store.get? i = some n

/-- The index is in the group and current. -/
def CurG (gs : Dict Nat Group) (gid i : Nat) : Prop := ∃ g, gs.get? gid = some g ∧ g.store.get? i = some g.generation

/-- Dictionaries, and no generation from the future. -/
structure GOk (gs : Dict Nat Group) : Prop where
  wf : gs.WF
  stores : ∀ gid g, gs.get? gid = some g → g.store.WF
  le : ∀ gid g i n, gs.get? gid = some g → g.store.get? i = some n → n ≤ g.generation

/-- Nothing is current. -/
def Past (gs : Dict Nat Group) : Prop := ∀ gid i, ¬ CurG gs gid i

theorem CurG.inG {gs : Dict Nat Group} {gid i : Nat} (h : CurG gs gid i) : InG gs gid i := by
  obtain ⟨g, a, b⟩ := h
  exact ⟨g, _, a, b⟩

theorem get?_filterMap {d : Dict Nat Group} (hwf : d.WF) (f : Group → Group) (p : Group → Bool) (k : Nat) :
    Dict.get? ((d.map fun g => (g.1, f g.2)).filter fun g => p g.2) k = ((d.get? k).map f).filter p := by
  induction d with
  | nil => rfl
  | cons a d ih =>
    obtain ⟨k0, g0⟩ := a
    have hwf' : Dict.WF d := (List.nodup_cons.mp hwf).2
    have hk0 : k0 ∉ Dict.keys d := (List.nodup_cons.mp hwf).1
    simp only [List.map_cons, List.filter_cons]
    by_cases hk : k0 = k
    · subst hk
      have hnone : Dict.get? d k0 = none := Dict.get?_none.mpr hk0
      by_cases hp : p (f g0) = true
      · simp [hp, Dict.get?_cons, Option.filter]
      · simp only [hp, Bool.false_eq_true, if_false, ih hwf', Dict.get?_cons, if_true, hnone]
        simp [Option.filter, hp]
    · by_cases hp : p (f g0) = true
      · simp [hp, Dict.get?_cons, hk, ih hwf']
      · simp only [hp, Bool.false_eq_true, if_false, ih hwf', Dict.get?_cons, hk, if_false]

theorem get?_removeVIdx {gs : Dict Nat Group} (hwf : gs.WF) (e : Entry) (gid : Nat) :
    (removeVIdx gs e).get? gid = ((gs.get? gid).map fun g => { g with store := g.store.del e.seq }).filter fun g => decide (g.store ≠ []) :=
  get?_filterMap hwf (fun g => { g with store := g.store.del e.seq }) (fun g => decide (g.store ≠ [])) gid

theorem get?_removeVIdx_some {gs : Dict Nat Group} (hwf : gs.WF) {e : Entry} {gid : Nat} {g' : Group}
    (h : (removeVIdx gs e).get? gid = some g') : ∃ g, gs.get? gid = some g ∧ g' = { g with store := g.store.del e.seq } := by
  rw [get?_removeVIdx hwf] at h
  cases hg : gs.get? gid with
  | none => simp [hg] at h
  | some g =>
    simp only [hg, Option.map_some, Option.filter] at h
    split at h
    · exact ⟨g, rfl, (Option.some.inj h).symm⟩
    · simp at h

theorem get?_removeVIdx_of {gs : Dict Nat Group} (hwf : gs.WF) {e : Entry} {gid i n : Nat} {g : Group}
    (h : gs.get? gid = some g) (h2 : (g.store.del e.seq).get? i = some n) :
    (removeVIdx gs e).get? gid = some { g with store := g.store.del e.seq } := by
  rw [get?_removeVIdx hwf, h]
  have : g.store.del e.seq ≠ [] := by intro h0; rw [h0] at h2; simp at h2
  simp [Option.filter, this]

theorem GOk.remove {gs : Dict Nat Group} (h : GOk gs) (e : Entry) : GOk (removeVIdx gs e) := by
  refine ⟨?_, ?_, ?_⟩
  · have : (Dict.keys (removeVIdx gs e)).Sublist (Dict.keys gs) := by
      have h1 : (removeVIdx gs e).Sublist _ := List.filter_sublist
      have h2 := h1.map (fun g : Nat × Group => g.1)
      simpa [Dict.keys, List.map_map, Function.comp_def] using h2
    exact this.nodup h.wf
  · intro gid g' hg'
    obtain ⟨g, a, rfl⟩ := get?_removeVIdx_some h.wf hg'
    exact (h.stores gid g a).del _
  · intro gid g' i n hg' hn
    obtain ⟨g, a, rfl⟩ := get?_removeVIdx_some h.wf hg'
    simp only at hn
    rw [Dict.get?_del (h.stores gid g a)] at hn
    split at hn
    · cases hn
    · exact h.le gid g i n a hn

theorem inG_remove {gs : Dict Nat Group} (h : GOk gs) (e : Entry) (gid i : Nat) :
    InG (removeVIdx gs e) gid i ↔ InG gs gid i ∧ e.seq ≠ i := by
  constructor
  · rintro ⟨g', n, hg', hn⟩
    obtain ⟨g, a, rfl⟩ := get?_removeVIdx_some h.wf hg'
    simp only at hn
    rw [Dict.get?_del (h.stores gid g a)] at hn
    split at hn
    · cases hn
    · exact ⟨⟨g, n, a, hn⟩, by assumption⟩
  · rintro ⟨⟨g, n, a, hn⟩, hne⟩
    have : (g.store.del e.seq).get? i = some n := by rw [Dict.get?_del (h.stores gid g a), if_neg hne]; exact hn
    exact ⟨_, n, get?_removeVIdx_of h.wf a this, this⟩

theorem curG_remove {gs : Dict Nat Group} (h : GOk gs) (e : Entry) (gid i : Nat) :
    CurG (removeVIdx gs e) gid i ↔ CurG gs gid i ∧ e.seq ≠ i := by
  constructor
  · rintro ⟨g', hg', hn⟩
    obtain ⟨g, a, rfl⟩ := get?_removeVIdx_some h.wf hg'
    simp only at hn
    rw [Dict.get?_del (h.stores gid g a)] at hn
    split at hn
    · cases hn
    · exact ⟨⟨g, a, hn⟩, by assumption⟩
  · rintro ⟨⟨g, a, hn⟩, hne⟩
    have : (g.store.del e.seq).get? i = some g.generation := by
      rw [Dict.get?_del (h.stores gid g a), if_neg hne]; exact hn
    exact ⟨_, get?_removeVIdx_of h.wf a this, this⟩

theorem removeAll_spec : ∀ (es : List Entry) (gs : Dict Nat Group), GOk gs → GOk (es.foldl removeVIdx gs) ∧
    (∀ gid i, InG (es.foldl removeVIdx gs) gid i ↔ InG gs gid i ∧ ∀ e ∈ es, e.seq ≠ i) ∧
    (∀ gid i, CurG (es.foldl removeVIdx gs) gid i ↔ CurG gs gid i ∧ ∀ e ∈ es, e.seq ≠ i) := by
  intro es
  induction es with
  | nil => intro gs h; exact ⟨h, by simp, by simp⟩
  | cons e es ih =>
    intro gs h
    obtain ⟨a, b, c⟩ := ih (removeVIdx gs e) (h.remove e)
    refine ⟨a, ?_, ?_⟩
    · intro gid i
      rw [List.foldl_cons, b, inG_remove h]
      simp [and_assoc]
    · intro gid i
      rw [List.foldl_cons, c, curG_remove h]
      simp [and_assoc]

/-- Setting an entry of a group to its generation. -/
theorem setG_spec {gs : Dict Nat Group} (h : GOk gs) {gid : Nat} {g : Group} (hw : g.store.WF)
    (hle : ∀ i n, g.store.get? i = some n → n ≤ g.generation) :
    GOk (gs.set gid g) ∧ (∀ x i, InG (gs.set gid g) x i ↔ if gid = x then (∃ n, g.store.get? i = some n) else InG gs x i) ∧
      (∀ x i, CurG (gs.set gid g) x i ↔ if gid = x then g.store.get? i = some g.generation else CurG gs x i) := by
  refine ⟨⟨h.wf.set _ _, ?_, ?_⟩, ?_, ?_⟩
  · intro x g' hg'
    rw [Dict.get?_set] at hg'
    split at hg'
    · cases hg'; exact hw
    · exact h.stores x g' hg'
  · intro x g' i n hg' hn
    rw [Dict.get?_set] at hg'
    split at hg'
    · cases hg'; exact hle i n hn
    · exact h.le x g' i n hg' hn
  · intro x i
    unfold InG
    simp only [Dict.get?_set]
    split
    · constructor
      · rintro ⟨g', n, e, hn⟩; cases e; exact ⟨n, hn⟩
      · rintro ⟨n, hn⟩; exact ⟨g, n, rfl, hn⟩
    · rfl
  · intro x i
    unfold CurG
    simp only [Dict.get?_set]
    split
    · constructor
      · rintro ⟨g', e, hn⟩; cases e; exact hn
      · intro hn; exact ⟨g, rfl, hn⟩
    · rfl

theorem findOrMake_spec {c : Codec} (h : GOk c.groups) (gid : Nat) : GOk (findOrMake c gid).groups ∧
    (findOrMake c gid).static = c.static ∧ (findOrMake c gid).lru = c.lru ∧
    (∀ x i, InG (findOrMake c gid).groups x i ↔ InG c.groups x i) ∧
    (∀ x i, CurG (findOrMake c gid).groups x i ↔ CurG c.groups x i) ∧ ∃ g, (findOrMake c gid).groups.get? gid = some g := by
  unfold findOrMake
  cases hg : c.groups.get? gid with
  | some g => simp [Dict.has, hg, h]
  | none =>
    simp only [Dict.has, hg, Option.isSome_none, Bool.false_eq_true, if_false]
    obtain ⟨a, b, d⟩ := setG_spec (gid := gid) (g := {}) h Dict.wf_nil (by simp)
    refine ⟨a, trivial, trivial, ?_, ?_, ⟨_, by rw [Dict.get?_set, if_pos rfl]⟩⟩
    · intro x i
      rw [b]
      split
      · rename_i hx; subst hx
        simp [InG, hg]
      · rfl
    · intro x i
      rw [d]
      split
      · rename_i hx; subst hx
        simp [CurG, hg]
      · rfl

theorem touch_spec {c : Codec} (h : GOk c.groups) (gid j : Nat) : GOk (touch c gid j).groups ∧
    (touch c gid j).static = c.static ∧ (touch c gid j).lru = c.lru ∧
    (∀ x i, InG (touch c gid j).groups x i ↔ InG c.groups x i ∨ (x = gid ∧ i = j)) ∧
    (∀ x i, CurG (touch c gid j).groups x i ↔ CurG c.groups x i ∨ (x = gid ∧ i = j)) ∧
    ∃ g, (touch c gid j).groups.get? gid = some g := by
  obtain ⟨h0, hs, hl, hi, hc, g, hg⟩ := findOrMake_spec h gid
  unfold touch
  simp only [hg]
  have hw := h0.stores gid g hg
  obtain ⟨a, b, d⟩ := setG_spec (gid := gid) (g := { g with store := g.store.set j g.generation }) h0 (hw.set _ _) (by
    intro i n hn
    simp only [Dict.get?_set] at hn
    split at hn
    · cases hn; exact Nat.le_refl _
    · exact h0.le gid g i n hg hn)
  refine ⟨a, hs, hl, ?_, ?_, ⟨_, by rw [Dict.get?_set, if_pos rfl]⟩⟩
  · intro x i
    rw [b, ← hi]
    split
    · rename_i hx; subst hx
      simp only [Dict.get?_set]
      constructor
      · rintro ⟨n, hn⟩
        split at hn
        · right; exact ⟨trivial, by omega⟩
        · left; exact ⟨g, n, hg, hn⟩
      · rintro (⟨g', n, hg', hn⟩ | ⟨-, rfl⟩)
        · rw [hg] at hg'; cases hg'
          by_cases hj : j = i
          · exact ⟨g.generation, by simp [hj]⟩
          · exact ⟨n, by simp [hj, hn]⟩
        · exact ⟨g.generation, by simp⟩
    · rename_i hx
      constructor
      · exact Or.inl
      · rintro (h | ⟨rfl, -⟩)
        · exact h
        · exact absurd rfl hx
  · intro x i
    rw [d, ← hc]
    split
    · rename_i hx; subst hx
      simp only [Dict.get?_set]
      constructor
      · intro hn
        split at hn
        · right; exact ⟨trivial, by omega⟩
        · left; exact ⟨g, hg, hn⟩
      · rintro (⟨g', hg', hn⟩ | ⟨-, rfl⟩)
        · rw [hg] at hg'; cases hg'
          by_cases hj : j = i
          · simp [hj]
          · simp [hj, hn]
        · simp
    · rename_i hx
      constructor
      · exact Or.inl
      · rintro (h | ⟨rfl, -⟩)
        · exact h
        · exact absurd rfl hx

theorem toggle_spec {c : Codec} (h : GOk c.groups) {gid : Nat} (j : Nat) (hex : ∃ g, c.groups.get? gid = some g) :
    ∃ c', toggle c gid j = .ok c' ∧ GOk c'.groups ∧ c'.static = c.static ∧ c'.lru = c.lru ∧
    (∀ x i, InG c'.groups x i ↔ if x = gid ∧ i = j then ¬ InG c.groups x i else InG c.groups x i) ∧
    (∀ x i, CurG c'.groups x i ↔ if x = gid ∧ i = j then ¬ InG c.groups x i else CurG c.groups x i) ∧
    ∃ g, c'.groups.get? gid = some g := by
  obtain ⟨g, hg⟩ := hex
  have hw := h.stores gid g hg
  have hin : ∀ i, InG c.groups gid i ↔ ∃ n, g.store.get? i = some n := by
    intro i
    constructor
    · rintro ⟨g', n, a, b⟩; rw [hg] at a; cases a; exact ⟨n, b⟩
    · rintro ⟨n, b⟩; exact ⟨g, n, hg, b⟩
  have hcur : ∀ i, CurG c.groups gid i ↔ g.store.get? i = some g.generation := by
    intro i
    constructor
    · rintro ⟨g', a, b⟩; rw [hg] at a; cases a; exact b
    · intro b; exact ⟨g, hg, b⟩
  cases hj : g.store.get? j with
  | some m =>
    have ht : toggle c gid j = .ok { c with groups := c.groups.set gid { g with store := g.store.del j } } := by
      simp [toggle, theGroup, hg, bind, Except.bind, pure, Except.pure, Dict.has, hj]
    obtain ⟨a, b, d⟩ := setG_spec (gid := gid) (g := { g with store := g.store.del j }) h (hw.del _) (by
      intro i n hn
      simp only [Dict.get?_del hw] at hn
      split at hn
      · cases hn
      · exact h.le gid g i n hg hn)
    refine ⟨_, ht, a, rfl, rfl, ?_, ?_, ⟨_, by rw [Dict.get?_set, if_pos rfl]⟩⟩
    · intro x i
      rw [b]
      by_cases hx : gid = x
      · subst hx
        simp only [if_true, Dict.get?_del hw, true_and, hin]
        by_cases hij : j = i
        · subst hij; simp [hj]
        · simp [hij, Ne.symm hij]
      · simp [hx, Ne.symm hx]
    · intro x i
      rw [d]
      by_cases hx : gid = x
      · subst hx
        simp only [if_true, Dict.get?_del hw, true_and, hin, hcur]
        by_cases hij : j = i
        · subst hij; simp [hj]
        · simp [hij, Ne.symm hij]
      · simp [hx, Ne.symm hx]
  | none =>
    have ht : toggle c gid j = .ok { c with groups := c.groups.set gid { g with store := g.store.set j g.generation } } := by
      simp [toggle, theGroup, hg, bind, Except.bind, pure, Except.pure, Dict.has, hj]
    obtain ⟨a, b, d⟩ := setG_spec (gid := gid) (g := { g with store := g.store.set j g.generation }) h (hw.set _ _) (by
      intro i n hn
      simp only [Dict.get?_set] at hn
      split at hn
      · cases hn; exact Nat.le_refl _
      · exact h.le gid g i n hg hn)
    refine ⟨_, ht, a, rfl, rfl, ?_, ?_, ⟨_, by rw [Dict.get?_set, if_pos rfl]⟩⟩
    · intro x i
      rw [b]
      by_cases hx : gid = x
      · subst hx
        simp only [if_true, Dict.get?_set, true_and, hin]
        by_cases hij : j = i
        · subst hij; simp [hj]
        · simp [hij, Ne.symm hij]
      · simp [hx, Ne.symm hx]
    · intro x i
      rw [d]
      by_cases hx : gid = x
      · subst hx
        simp only [if_true, Dict.get?_set, true_and, hin, hcur]
        by_cases hij : j = i
        · subst hij; simp [hj]
        · simp [hij, Ne.symm hij]
      · simp [hx, Ne.symm hx]

theorem toggleAll_spec (gid : Nat) : ∀ (is : List Nat) (c : Codec), GOk c.groups → is.Nodup →
    (∃ g, c.groups.get? gid = some g) →
    ∃ c', toggleAll gid is c = .ok c' ∧ GOk c'.groups ∧ c'.static = c.static ∧ c'.lru = c.lru ∧
    (∀ x i, InG c'.groups x i ↔ if x = gid ∧ i ∈ is then ¬ InG c.groups x i else InG c.groups x i) ∧
    (∀ x i, CurG c'.groups x i ↔ if x = gid ∧ i ∈ is then ¬ InG c.groups x i else CurG c.groups x i) ∧
    ∃ g, c'.groups.get? gid = some g := by
  intro is
  induction is with
  | nil => intro c h _ hex; exact ⟨c, rfl, h, rfl, rfl, by simp, by simp, hex⟩
  | cons j js ih =>
    intro c h hnd hex
    obtain ⟨c1, e1, h1, s1, l1, i1, u1, x1⟩ := toggle_spec h j hex
    obtain ⟨c2, e2, h2, s2, l2, i2, u2, x2⟩ := ih c1 h1 (List.nodup_cons.mp hnd).2 x1
    have hnj := (List.nodup_cons.mp hnd).1
    refine ⟨c2, by simp only [toggleAll, e1, bind, Except.bind]; exact e2, h2, s2.trans s1, l2.trans l1, ?_, ?_, x2⟩
    · intro x i
      rw [i2, i1]
      by_cases hx : x = gid
      · subst hx
        by_cases hij : i = j
        · subst hij; simp [hnj]
        · simp [hij]
      · simp [hx]
    · intro x i
      rw [u2, i1, u1]
      by_cases hx : x = gid
      · subst hx
        by_cases hij : i = j
        · subst hij; simp [hnj]
        · simp [hij]
      · simp [hx]

end Verif.Delta2Bohe
