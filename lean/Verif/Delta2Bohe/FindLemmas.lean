import Verif.Delta2Bohe.HistLemmas
import Verif.Delta2Bohe.MakeLemmas
import Verif.Delta2Bohe.Spec
import Mathlib.Data.List.Induction
/-
delta2_bohe: storing many headers, and searching.
-/
namespace Verif.Delta2Bohe
open Verif Verif.Delta2Bohe.Spec

theorem insertVal_insL (c : Codec) (k v : Str) : insertVal c k v = (insL c.lru k v).bind fun r =>
    (Delta2.pyIndex r.1.ring (-1)).bind fun e => .ok ({ c with lru := r.1, groups := r.2.foldl removeVIdx c.groups }, e.seq) := by
  simp only [insertVal, insL, bind, Except.bind, pure, Except.pure]
  cases reserve (v.length + k.length) 1 c.lru with
  | error x => rfl
  | ok r =>
    simp only
    cases r.1.store k v <;> rfl

/-- Storing headers one after the other. -/
def storeHdrs : List Hdr → Codec → Py Codec
  | [], c => .ok c
  | (k, v) :: kvs, c => do
    let (c, _) ← insertVal c k v
    storeHdrs kvs c

theorem insertVal_holds {c : Codec} {hist : List Hdr} {n : Nat} (h : Holds c.lru hist n) (k v : Str) (hsz : v.length + k.length ≤ 16384) :
    ∃ n' s' p, n ≤ n' ∧ insertVal c k v = .ok ({ c with lru := s', groups := p.foldl removeVIdx c.groups }, numberOf hist.length) ∧
      p = ((entriesOf hist).drop n).take (n' - n) ∧ Holds s' (hist ++ [(k, v)]) n' := by
  obtain ⟨n', s', p, hn, e, hp, h'⟩ := holds_step h k v hsz
  refine ⟨n', s', p, hn, ?_, hp, h'⟩
  have hlast : Delta2.pyIndex s'.ring (-1) = .ok ⟨k, v, numberOf hist.length⟩ := by
    have hring := h'.ring
    have hle := h'.le
    have hfit : n' ≤ hist.length := by
      obtain ⟨m, hm, s2, e2, hl', hr, -⟩ := insL_any h.lim k v hsz
      rw [e] at e2
      cases e2
      have h1 := holds_len h'
      rw [hr] at h1
      simp at h1
      simp at hle
      omega
    rw [entriesOf_append, List.drop_append_of_le_length (by rw [entriesOf_length]; omega)] at hring
    rw [hring]
    simp [Delta2.pyIndex]
  rw [insertVal_insL, e]
  simp only [Except.bind, hlast]

theorem storeHdrs_holds : ∀ (kvs : List Hdr) {c : Codec} {hist : List Hdr} {n : Nat}, Holds c.lru hist n → (∀ h ∈ kvs, h.1.length + h.2.length ≤ 16384) →
    ∃ n' c', storeHdrs kvs c = .ok c' ∧ c'.static = c.static ∧ Holds c'.lru (hist ++ kvs) n' := by
  intro kvs
  induction kvs with
  | nil => intro c hist n h _; exact ⟨n, c, rfl, rfl, by simpa using h⟩
  | cons x kvs ih =>
    obtain ⟨k, v⟩ := x
    intro c hist n h hsz
    have := hsz (k, v) (by simp)
    simp only at this
    obtain ⟨n', s', p, -, e, -, h'⟩ := insertVal_holds h k v (by omega)
    obtain ⟨n2, c2, e2, s2, h2⟩ := ih (c := { c with lru := s', groups := p.foldl removeVIdx c.groups }) h' fun y hy => hsz y (by simp [hy])
    refine ⟨n2, c2, ?_, s2, by simpa using h2⟩
    simp only [storeHdrs, e, bind, Except.bind, e2]

theorem lru0_holds : Holds lru0 [] 0 :=
  ⟨⟨rfl, rfl, rfl, rfl, rfl⟩, rfl, le_rfl, rfl, ⟨by decide, by decide⟩, by intro m hm; omega⟩

/-! ### Searching -/

theorem findLoop_find (k v : Str) (l : List Entry) : findLoop k v l =
    (l.find? fun e => decide (e.key = k), (l.find? fun e => decide (e.key = k)).filter fun e => decide (e.val = v)) := by
  induction l with
  | nil => rfl
  | cons e l ih =>
    simp only [findLoop, List.find?_cons]
    by_cases h : e.key = k
    · simp [h, Option.filter]
    · simp [h, ih]

/-- The newest entry with a key, the first entry left out. -/
theorem find_newest (ring : List Entry) (k : Str) (e : Entry) : ((ring.drop 1).reverse.find? fun e => decide (e.key = k)) = some e ↔
    ∃ j, 0 < j ∧ ring[j]? = some e ∧ e.key = k ∧ ∀ i > j, ∀ e', ring[i]? = some e' → e'.key ≠ k := by
  have key : ∀ l : List Entry, (l.reverse.find? fun e => decide (e.key = k)) = some e ↔
      ∃ j : Nat, l[j]? = some e ∧ e.key = k ∧ ∀ i : Nat, i > j → ∀ e' : Entry, l[i]? = some e' → e'.key ≠ k := by
    intro l
    induction l using List.reverseRecOn with
    | nil => simp
    | append_singleton l x ih =>
      rw [List.reverse_append, List.reverse_singleton, List.singleton_append, List.find?_cons]
      by_cases hx : x.key = k
      · simp only [hx, decide_true, Option.some.injEq]
        constructor
        · rintro rfl
          refine ⟨l.length, by simp, hx, fun i hi e' he' => ?_⟩
          rw [List.getElem?_eq_none (by simp; omega)] at he'
          cases he'
        · rintro ⟨j, h1, h2, h3⟩
          by_cases hj : j = l.length
          · subst hj; simpa using h1
          · have hlt : j < l.length := by
              have := (List.getElem?_eq_some_iff.1 h1).1
              simp at this
              omega
            exact absurd hx (h3 l.length hlt x (by simp))
      · simp only [hx, decide_false, ih]
        constructor
        · rintro ⟨j, h1, h2, h3⟩
          have hlt := (List.getElem?_eq_some_iff.1 h1).1
          refine ⟨j, by rw [List.getElem?_append_left hlt]; exact h1, h2, fun i hi e' he' => ?_⟩
          by_cases hil : i < l.length
          · rw [List.getElem?_append_left hil] at he'
            exact h3 i hi e' he'
          · have := (List.getElem?_eq_some_iff.1 he').1
            have hi' : i = l.length := by simp at this; omega
            subst hi'
            simp at he'
            rw [← he']
            exact hx
        · rintro ⟨j, h1, h2, h3⟩
          have hlt : j < l.length := by
            have := (List.getElem?_eq_some_iff.1 h1).1
            by_contra hc
            have : j = l.length := by simp at this; omega
            subst this
            simp at h1
            rw [h1] at hx
            exact hx h2
          rw [List.getElem?_append_left hlt] at h1
          refine ⟨j, h1, h2, fun i hi e' he' => h3 i hi e' ?_⟩
          rw [List.getElem?_append_left (List.getElem?_eq_some_iff.1 he').1]
          exact he'
  rw [key]
  simp only [List.getElem?_drop]
  constructor
  · rintro ⟨j, h1, h2, h3⟩
    refine ⟨1 + j, by omega, h1, h2, fun i hi e' he' => h3 (i - 1) (by omega) e' ?_⟩
    rw [show 1 + (i - 1) = i by omega]
    exact he'
  · rintro ⟨j, h0, h1, h2, h3⟩
    refine ⟨j - 1, by rw [show 1 + (j - 1) = j by omega]; exact h1, h2, fun i hi e' he' => h3 (1 + i) (by omega) e' he'⟩

theorem Spec.Newest.unique {l : List Hdr} {k : Str} {i j : Nat} (h1 : Newest l k i) (h2 : Newest l k j) : i = j := by
  obtain ⟨-, ⟨v, hv⟩, h3⟩ := h1
  obtain ⟨-, ⟨w, hw⟩, h4⟩ := h2
  rcases Nat.lt_trichotomy i j with h | h | h
  · exact absurd hw (h3 j h w)
  · exact h
  · exact absurd hv (h4 i h v)

/-- A ring that holds the headers `l` under the numbers `num`. -/
def RingOf (ring : List Entry) (l : List Hdr) (num : Nat → Nat) : Prop := ring = l.zipIdx.map fun x => ⟨x.1.1, x.1.2, num x.2⟩

theorem RingOf.get {ring : List Entry} {l : List Hdr} {num : Nat → Nat} (h : RingOf ring l num) (j : Nat) :
    ring[j]? = (l[j]?).map fun x => ⟨x.1, x.2, num j⟩ := by
  rw [h]
  simp [List.getElem?_map, List.getElem?_zipIdx, Option.map_map, Function.comp_def]

theorem find_ring {ring : List Entry} {l : List Hdr} {num : Nat → Nat} (h : RingOf ring l num) (k : Str) (e : Entry) :
    ((ring.drop 1).reverse.find? fun e => decide (e.key = k)) = some e ↔ ∃ j, Newest l k j ∧ ∃ v, l[j]? = some (k, v) ∧ e = ⟨k, v, num j⟩ := by
  rw [find_newest]
  constructor
  · rintro ⟨j, h0, h1, h2, h3⟩
    rw [h.get] at h1
    cases hl : l[j]? with
    | none => simp [hl] at h1
    | some x =>
      simp only [hl, Option.map_some, Option.some.injEq] at h1
      subst h1
      simp only at h2
      subst h2
      refine ⟨j, ⟨h0, ⟨x.2, hl⟩, fun i hi v hv => ?_⟩, x.2, hl, rfl⟩
      exact h3 i hi ⟨x.1, v, num i⟩ (by rw [h.get, hv]; rfl) rfl
  · rintro ⟨j, ⟨h0, -, h3⟩, v, hv, rfl⟩
    refine ⟨j, h0, by rw [h.get, hv]; rfl, rfl, fun i hi e' he' hk => ?_⟩
    rw [h.get] at he'
    cases hl : l[i]? with
    | none => simp [hl] at he'
    | some x =>
      simp only [hl, Option.map_some, Option.some.injEq] at he'
      subst he'
      simp only at hk
      subst hk
      exact h3 i hi x.2 hl

/-- What the search returns. -/
theorem findEntryIdx_newest {c : Codec} {l : List Hdr} {num : Nat → Nat} (hr : RingOf c.lru.ring l num) (hs : c.static = staticLru) (k v : Str) (i : Nat) :
    ((findEntryIdx c k v).1 = some i ↔ (∃ j, Newest l k j ∧ i = num j) ∨ ((∀ j, ¬ Newest l k j) ∧ Newest defaultKvs k i)) ∧
    ((findEntryIdx c k v).2 = some i ↔ (∃ j, Newest l k j ∧ l[j]? = some (k, v) ∧ i = num j) ∨
      ((∀ j, Newest l k j → l[j]? ≠ some (k, v)) ∧ Newest defaultKvs k i ∧ defaultKvs[i]? = some (k, v))) := by
  have hst : RingOf staticLru.ring defaultKvs id := rfl
  have st1 : ∀ i, (findKeyValEntries staticLru k v).1.map (·.seq) = some i ↔ Newest defaultKvs k i := by
    intro i
    simp only [findKeyValEntries, findLoop_find, Option.map_eq_some_iff, find_ring hst]
    constructor
    · rintro ⟨e, ⟨j, h1, w, h2, rfl⟩, rfl⟩; exact h1
    · intro h1
      obtain ⟨w, hw⟩ := h1.2.1
      exact ⟨⟨k, w, i⟩, ⟨i, h1, w, hw, rfl⟩, rfl⟩
  have st2 : ∀ i, (findKeyValEntries staticLru k v).2.map (·.seq) = some i ↔ Newest defaultKvs k i ∧ defaultKvs[i]? = some (k, v) := by
    intro i
    simp only [findKeyValEntries, findLoop_find, Option.map_eq_some_iff, Option.filter_eq_some_iff, find_ring hst]
    constructor
    · rintro ⟨e, ⟨⟨j, h1, w, h2, rfl⟩, h3⟩, rfl⟩
      simp only [decide_eq_true_eq] at h3
      subst h3
      exact ⟨h1, h2⟩
    · rintro ⟨h1, h2⟩
      exact ⟨⟨k, v, i⟩, ⟨⟨i, h1, v, h2, rfl⟩, by simp⟩, rfl⟩
  have dyn : ∀ e, ((c.lru.ring.drop 1).reverse.find? fun e => decide (e.key = k)) = some e ↔ _ := fun e => find_ring hr k e
  simp only [findEntryIdx, hs]
  cases hf : ((c.lru.ring.drop 1).reverse.find? fun e => decide (e.key = k)) with
  | none =>
    have hno : ∀ j, ¬ Newest l k j := by
      intro j hj
      obtain ⟨w, hw⟩ := hj.2.1
      have := (dyn ⟨k, w, num j⟩).2 ⟨j, hj, w, hw, rfl⟩
      rw [hf] at this
      cases this
    have e1 : findKeyValEntries c.lru k v = (none, none) := by
      simp only [findKeyValEntries, findLoop_find, hf]
      rfl
    simp only [e1, st1, st2]
    constructor
    · constructor
      · exact fun h => .inr ⟨hno, h⟩
      · rintro (⟨j, h, -⟩ | ⟨-, h⟩)
        · exact absurd h (hno j)
        · exact h
    · constructor
      · exact fun h => .inr ⟨fun j hj => absurd hj (hno j), h⟩
      · rintro (⟨j, h, -⟩ | ⟨-, h⟩)
        · exact absurd h (hno j)
        · exact h
  | some e =>
    obtain ⟨j, hj, w, hw, rfl⟩ := (dyn e).1 hf
    by_cases hv : w = v
    · subst hv
      have e1 : findKeyValEntries c.lru k w = (some ⟨k, w, num j⟩, some ⟨k, w, num j⟩) := by
        simp only [findKeyValEntries, findLoop_find, hf]
        simp [Option.filter]
      simp only [e1, Option.some.injEq]
      constructor
      · constructor
        · rintro rfl; exact .inl ⟨j, hj, rfl⟩
        · rintro (⟨j', h1, rfl⟩ | ⟨h, -⟩)
          · rw [hj.unique h1]
          · exact absurd hj (h j)
      · constructor
        · rintro rfl; exact .inl ⟨j, hj, hw, rfl⟩
        · rintro (⟨j', h1, -, rfl⟩ | ⟨h, -⟩)
          · rw [hj.unique h1]
          · exact absurd hw (h j hj)
    · have e1 : findKeyValEntries c.lru k v = (some ⟨k, w, num j⟩, none) := by
        simp only [findKeyValEntries, findLoop_find, hf]
        simp [Option.filter, hv]
      have hne : ∀ j', Newest l k j' → l[j']? ≠ some (k, v) := by
        intro j' h1 h2
        rw [← hj.unique h1, hw] at h2
        simp only [Option.some.injEq, Prod.mk.injEq, true_and] at h2
        exact hv h2
      simp only [e1, st2, Option.some.injEq]
      constructor
      · constructor
        · rintro rfl; exact .inl ⟨j, hj, rfl⟩
        · rintro (⟨j', h1, rfl⟩ | ⟨h, -⟩)
          · rw [hj.unique h1]
          · exact absurd hj (h j)
      · constructor
        · exact fun h => .inr ⟨hne, h⟩
        · rintro (⟨j', h1, h2, -⟩ | ⟨-, h⟩)
          · exact absurd h2 (hne j' h1)
          · exact h

theorem Holds.ringOf {s : Lru} {hist : List Hdr} {n : Nat} (h : Holds s hist n) : RingOf s.ring (hist.drop n) fun j => numberOf (n + j) := by
  unfold RingOf
  apply List.ext_getElem?
  intro j
  rw [h.ring]
  simp [entriesOf, List.getElem?_zipIdx, Option.map_map, Function.comp_def]

end Verif.Delta2Bohe
