import Mathlib.Data.List.Perm.Subperm
import Verif.PyLemmas
import Verif.Cpp.Codec
/-
The storage of the C++ encoder: what holds of it between steps, and that evicting keeps it.
-/
namespace Verif.Cpp
open Verif

/-! ### Dictionaries -/

section
variable {α β γ : Type} [DecidableEq α]

theorem has_iff {d : Dict α β} {k : α} : Dict.has d k = true ↔ ∃ v, Dict.get? d k = some v := by
  unfold Dict.has
  cases Dict.get? d k <;> simp

theorem has_iff_mem {d : Dict α β} {k : α} : Dict.has d k = true ↔ k ∈ Dict.keys d := by
  rw [has_iff]
  constructor
  · rintro ⟨v, h⟩
    exact Dict.mem_keys_of_mem (Dict.get?_mem h)
  · intro h
    cases e : Dict.get? d k with
    | none => exact absurd h (Dict.get?_none.1 e)
    | some v => exact ⟨v, rfl⟩

theorem del_set (d : Dict α β) (k : α) (v : β) (h : k ∈ Dict.keys d) :
    Dict.del (Dict.set d k v) k = Dict.del d k := by
  induction d with
  | nil => cases h
  | cons x d ih =>
    obtain ⟨k', v'⟩ := x
    unfold Dict.set
    by_cases e : k' = k
    · simp [e, Dict.del]
    · have h' : k ∈ Dict.keys d := by
        rcases List.mem_cons.1 h with h | h
        · exact absurd h.symm e
        · exact h
      simp [e, Dict.del, ih h']

theorem get?_map (d : Dict α β) (f : β → γ) (k : α) :
    Dict.get? (d.map fun x => (x.1, f x.2)) k = (Dict.get? d k).map f := by
  induction d with
  | nil => rfl
  | cons x d ih =>
    obtain ⟨k', v'⟩ := x
    simp only [List.map_cons, Dict.get?_cons, ih]
    split <;> rfl

theorem keys_map (d : Dict α β) (f : β → γ) : Dict.keys (d.map fun x => (x.1, f x.2)) = Dict.keys d := by
  simp [Dict.keys, Function.comp_def]

theorem sum_del (d : Dict α β) (f : α × β → Nat) {k : α} {v : β} (h : Dict.get? d k = some v) :
    (d.map f).sum = f (k, v) + ((Dict.del d k).map f).sum := by
  induction d with
  | nil => cases h
  | cons x d ih =>
    obtain ⟨k', v'⟩ := x
    rw [Dict.get?_cons] at h
    unfold Dict.del
    by_cases e : k' = k
    · rw [if_pos e] at h ⊢
      cases h
      subst e
      simp
    · rw [if_neg e] at h ⊢
      simp only [List.map_cons, List.sum_cons, ih h]
      omega

theorem length_del (d : Dict α β) {k : α} {v : β} (h : Dict.get? d k = some v) :
    d.length = 1 + (Dict.del d k).length := by
  have := sum_del d (fun _ => 1) h
  simpa using this

theorem sum_set_same (d : Dict α β) (f : α × β → Nat) {k : α} {v w : β} (h : Dict.get? d k = some v)
    (hf : f (k, w) = f (k, v)) : ((Dict.set d k w).map f).sum = (d.map f).sum := by
  induction d with
  | nil => cases h
  | cons x d ih =>
    obtain ⟨k', v'⟩ := x
    rw [Dict.get?_cons] at h
    unfold Dict.set
    by_cases e : k' = k
    · rw [if_pos e] at h ⊢
      cases h
      subst e
      simp [hf]
    · rw [if_neg e] at h ⊢
      simp only [List.map_cons, List.sum_cons, ih h]

theorem sum_set_new (d : Dict α β) (f : α × β → Nat) {k : α} {w : β} (h : Dict.get? d k = none) :
    ((Dict.set d k w).map f).sum = (d.map f).sum + f (k, w) := by
  rw [Dict.set_new (Dict.get?_none.1 h)]
  simp

theorem length_set_same (d : Dict α β) {k : α} {v w : β} (h : Dict.get? d k = some v) :
    (Dict.set d k w).length = d.length := by
  have := sum_set_same d (fun _ => 1) (w := w) h rfl
  simpa using this

theorem length_set_new (d : Dict α β) {k : α} {w : β} (h : Dict.get? d k = none) :
    (Dict.set d k w).length = d.length + 1 := by
  rw [Dict.set_new (Dict.get?_none.1 h)]
  simp

theorem wf_foldl_del {d : Dict α β} (h : d.WF) (ps : List α) : (ps.foldl Dict.del d).WF := by
  induction ps generalizing d with
  | nil => exact h
  | cons p ps ih => exact ih (h.del p)

theorem get?_foldl_del {d : Dict α β} (h : d.WF) (ps : List α) (q : α) :
    Dict.get? (ps.foldl Dict.del d) q = if q ∈ ps then none else Dict.get? d q := by
  induction ps generalizing d with
  | nil => simp
  | cons p ps ih =>
    rw [List.foldl_cons, ih (h.del p), Dict.get?_del h]
    by_cases e : p = q
    · simp [e]
    · have : q ≠ p := fun h => e h.symm
      simp [e, this]

end

/-! ### The invariant -/

/-- What holds of the storage between steps.  `refs` is what the reference counts of the keys are. -/
structure Inv (s : Codec) (refs : Str → Nat) : Prop where
  kwf : s.keymap.WF
  hwf : s.heap.WF
  fresh : ∀ p e, s.heap.get? p = some e → p < s.nextPtr
  up : ∀ p e, s.heap.get? p = some e → ∃ k, s.keymap.get? e.key = some k ∧ (e.val, p) ∈ k.vals
  down : ∀ key k, s.keymap.get? key = some k → ∀ v p, (v, p) ∈ k.vals →
    ∃ e, s.heap.get? p = some e ∧ e.key = key ∧ e.val = v
  vnd : ∀ key k, s.keymap.get? key = some k → k.vals.Nodup
  refc : ∀ key k, s.keymap.get? key = some k → k.refcnt = refs key
  refk : ∀ key, 0 < refs key → ∃ k, s.keymap.get? key = some k
  lnd : s.lru.Nodup
  lru : ∀ p, some p ∈ s.lru ↔ ∃ e, s.heap.get? p = some e ∧ e.inLru = true
  pin : none ∈ s.lru ↔ s.pinned = true
  gwf : s.groups.WF
  gin : ∀ g G, s.groups.get? g = some G → G.WF
  grp : ∀ g G, s.groups.get? g = some G → ∀ p t, G.get? p = some t → ∃ e, s.heap.get? p = some e
  size : s.stateSize = (s.keymap.map fun x => x.1.length).sum + (s.heap.map fun x => x.2.val.length).sum
  nums : s.numVals = s.heap.length

/-- `s'` is `s` after the eviction of `ps`. -/
structure Evict (s s' : Codec) (ps : List Nat) : Prop where
  lru : s.lru = ps.map some ++ s'.lru
  heap : ∀ q, s'.heap.get? q = if q ∈ ps then none else s.heap.get? q
  grp : ∀ g, s'.groups.get? g = (s.groups.get? g).map fun G => ps.foldl Dict.del G
  maxS : s'.maxState = s.maxState
  maxV : s'.maxVals = s.maxVals
  pinned : s'.pinned = s.pinned
  nextPtr : s'.nextPtr = s.nextPtr
  fc : s'.frameCount = s.frameCount

theorem Evict.refl (s : Codec) : Evict s s [] where
  lru := rfl
  heap := by simp
  grp := by intro g; cases s.groups.get? g <;> rfl
  maxS := rfl
  maxV := rfl
  pinned := rfl
  nextPtr := rfl
  fc := rfl

theorem Evict.trans {s s' s'' : Codec} {ps qs : List Nat} (h : Evict s s' ps) (h' : Evict s' s'' qs) :
    Evict s s'' (ps ++ qs) where
  lru := by rw [h.lru, h'.lru]; simp
  heap := by
    intro q
    rw [h'.heap, h.heap]
    by_cases h1 : q ∈ qs <;> by_cases h2 : q ∈ ps <;> simp [h1, h2]
  grp := by
    intro g
    rw [h'.grp, h.grp, Option.map_map]
    congr 1
    funext G
    simp [List.foldl_append]
  maxS := h'.maxS.trans h.maxS
  maxV := h'.maxV.trans h.maxV
  pinned := h'.pinned.trans h.pinned
  nextPtr := h'.nextPtr.trans h.nextPtr
  fc := h'.fc.trans h.fc

/-- … and no key is new. -/
structure EvictK (s s' : Codec) (ps : List Nat) : Prop extends Evict s s' ps where
  keys : ∀ key, s.keymap.get? key = none → s'.keymap.get? key = none

theorem EvictK.refl (s : Codec) : EvictK s s [] := ⟨Evict.refl s, fun _ h => h⟩

theorem EvictK.trans {s s' s'' : Codec} {ps qs : List Nat} (h : EvictK s s' ps) (h' : EvictK s' s'' qs) :
    EvictK s s'' (ps ++ qs) := ⟨h.toEvict.trans h'.toEvict, fun key hk => h'.keys key (h.keys key hk)⟩

theorem le_sum_of_get {α β : Type} [DecidableEq α] {d : Dict α β} (f : α × β → Nat) {k : α} {v : β}
    (h : Dict.get? d k = some v) : f (k, v) ≤ (d.map f).sum := by
  have := sum_del d f h
  omega

/-- Eviction of the entry at the end of the list. -/
theorem popOne_spec {s : Codec} {refs : Str → Nat} {p : Nat} {rest : List (Option Nat)} (h : Inv s refs)
    (hl : s.lru = some p :: rest) : ∃ s', popOne s = .ok (true, s') ∧ Inv s' refs ∧ EvictK s s' [p] := by
  obtain ⟨e, he, hin⟩ := (h.lru p).1 (by rw [hl]; simp)
  obtain ⟨k, hk, hv⟩ := h.up p e he
  have hval := le_sum_of_get (fun x : Nat × CEntry => x.2.val.length) he
  have hkey := le_sum_of_get (fun x : Str × CKey => x.1.length) hk
  have hlen := length_del _ he
  have hsum := sum_del _ (fun x : Nat × CEntry => x.2.val.length) he
  have hksum := sum_del _ (fun x : Str × CKey => x.1.length) hk
  have hsize := h.size
  have hnums := h.nums
  simp only at hval hkey hsum hksum
  have hlnd := h.lnd
  rw [hl] at hlnd
  have hpr : some p ∉ rest := (List.nodup_cons.1 hlnd).1
  have hrest : s.lru.erase (some p) = rest := by rw [hl]; simp
  have h1 : entryAt (removeFromGroups s p) p = .ok e := by simp [entryAt, removeFromGroups, he]
  have h2 : subSize s.stateSize e.val.length = .ok (s.stateSize - e.val.length) := if_pos (by omega)
  have h3 : subSize s.numVals 1 = .ok (s.numVals - 1) := if_pos (by omega)
  have h4 : keyAt s e.key = .ok k := by simp [keyAt, hk]
  -- what remains of the heap
  have hheap : ∀ q, Dict.get? (Dict.del s.heap p) q = if q = p then none else s.heap.get? q := by
    intro q
    rw [Dict.get?_del h.hwf]
    by_cases e : p = q
    · simp [e]
    · rw [if_neg e, if_neg (fun h => e h.symm)]
  -- the new key entry
  let k' : CKey := { k with vals := k.vals.erase (e.val, p) }
  have hmem : ∀ x, x ∈ k'.vals ↔ x ≠ (e.val, p) ∧ x ∈ k.vals := fun x => (h.vnd _ _ hk).mem_erase_iff
  have hgrp : ∀ g, Dict.get? (s.groups.map fun g => (g.1, g.2.del p)) g =
      (s.groups.get? g).map fun G => G.del p := fun g => get?_map s.groups (fun G => G.del p) g
  -- facts common to the two cases
  have common : ∀ s' : Codec, s'.heap = s.heap.del p → s'.lru = rest →
      s'.groups = s.groups.map (fun g => (g.1, g.2.del p)) → s'.maxState = s.maxState → s'.maxVals = s.maxVals →
      s'.pinned = s.pinned → s'.nextPtr = s.nextPtr → s'.frameCount = s.frameCount → s'.keymap.WF →
      (∀ key, key ≠ e.key → s'.keymap.get? key = s.keymap.get? key) →
      (s'.keymap.get? e.key = some k' ∨ s'.keymap.get? e.key = none ∧ k'.vals = [] ∧ k.refcnt = 0) →
      s'.stateSize = (s'.keymap.map fun x => x.1.length).sum + (s'.heap.map fun x => x.2.val.length).sum →
      s'.numVals = s.numVals - 1 → Inv s' refs ∧ EvictK s s' [p] := by
    intro s' e1 e2 e3 e4 e5 e6 e7 e8 e9 e10 e11 e12 e13
    have keyof : ∀ key kk, s'.keymap.get? key = some kk →
        (key ≠ e.key ∧ s.keymap.get? key = some kk) ∨ (key = e.key ∧ kk = k') := by
      intro key kk hkk
      by_cases hne : key = e.key
      · subst hne
        rcases e11 with e11 | ⟨e11, _⟩
        · rw [e11] at hkk
          cases hkk
          exact Or.inr ⟨rfl, rfl⟩
        · rw [e11] at hkk; cases hkk
      · rw [e10 key hne] at hkk
        exact Or.inl ⟨hne, hkk⟩
    constructor
    · refine ⟨e9, ?_, ?_, ?_, ?_, ?_, ?_, ?_, ?_, ?_, ?_, ?_, ?_, ?_, e12, ?_⟩
      · rw [e1]; exact h.hwf.del p
      · intro q f hq
        rw [e1, hheap] at hq
        split at hq
        · cases hq
        · rw [e7]; exact h.fresh q f hq
      · intro q f hq
        rw [e1, hheap] at hq
        split at hq
        · cases hq
        · rename_i hqp
          obtain ⟨kk, hkk, hvv⟩ := h.up q f hq
          by_cases hfe : f.key = e.key
          · rw [hfe] at hkk ⊢
            rw [hk] at hkk
            cases hkk
            have : (f.val, q) ∈ k'.vals := (hmem _).2 ⟨fun hc => hqp (Prod.mk.inj hc).2, hvv⟩
            rcases e11 with e11 | ⟨e11, hnil, _⟩
            · exact ⟨k', e11, this⟩
            · rw [hnil] at this; cases this
          · exact ⟨kk, by rw [e10 _ hfe]; exact hkk, hvv⟩
      · intro key kk hkk v q hvq
        rcases keyof key kk hkk with ⟨hne, hkk⟩ | ⟨rfl, rfl⟩
        · obtain ⟨f, hf, hfk, hfv⟩ := h.down key kk hkk v q hvq
          refine ⟨f, ?_, hfk, hfv⟩
          rw [e1, hheap, if_neg]
          · exact hf
          · rintro rfl
            rw [he] at hf
            cases hf
            exact hne hfk.symm
        · obtain ⟨hne, hvq⟩ := (hmem _).1 hvq
          obtain ⟨f, hf, hfk, hfv⟩ := h.down _ k hk v q hvq
          refine ⟨f, ?_, hfk, hfv⟩
          rw [e1, hheap, if_neg]
          · exact hf
          · rintro rfl
            rw [he] at hf
            cases hf
            exact hne (by rw [hfv])
      · intro key kk hkk
        rcases keyof key kk hkk with ⟨hne, hkk⟩ | ⟨rfl, rfl⟩
        · exact h.vnd key kk hkk
        · exact (h.vnd _ _ hk).erase _
      · intro key kk hkk
        rcases keyof key kk hkk with ⟨hne, hkk⟩ | ⟨rfl, rfl⟩
        · exact h.refc key kk hkk
        · exact h.refc _ k hk
      · intro key hr
        by_cases hne : key = e.key
        · subst hne
          rcases e11 with e11 | ⟨e11, _, h0⟩
          · exact ⟨_, e11⟩
          · have := h.refc _ k hk
            omega
        · rw [e10 key hne]
          exact h.refk key hr
      · rw [e2]; exact (List.nodup_cons.1 hlnd).2
      · intro q
        rw [e2, e1]
        constructor
        · intro hq
          have hqp : q ≠ p := fun hc => hpr (hc ▸ hq)
          obtain ⟨f, hf, hfi⟩ := (h.lru q).1 (by rw [hl]; exact List.mem_cons_of_mem _ hq)
          exact ⟨f, by rw [hheap, if_neg hqp]; exact hf, hfi⟩
        · rintro ⟨f, hf, hfi⟩
          rw [hheap] at hf
          split at hf
          · cases hf
          · rename_i hqp
            have := (h.lru q).2 ⟨f, hf, hfi⟩
            rw [hl] at this
            rcases List.mem_cons.1 this with hc | hc
            · exact absurd (Option.some.inj hc) hqp
            · exact hc
      · rw [e2, e6, ← h.pin, hl]
        simp
      · rw [e3]
        unfold Dict.WF
        rw [keys_map s.groups (fun G => G.del p)]
        exact h.gwf
      · intro g G hG
        rw [e3, hgrp] at hG
        cases hg : s.groups.get? g with
        | none => rw [hg] at hG; cases hG
        | some G' => rw [hg] at hG; cases hG; exact (h.gin g G' hg).del p
      · intro g G hG q t hq
        rw [e3, hgrp] at hG
        cases hg : s.groups.get? g with
        | none => rw [hg] at hG; cases hG
        | some G' =>
          rw [hg] at hG
          cases hG
          rw [Dict.get?_del (h.gin g G' hg)] at hq
          split at hq
          · cases hq
          · rename_i hpq
            obtain ⟨f, hf⟩ := h.grp g G' hg q t hq
            exact ⟨f, by rw [e1, hheap, if_neg (fun hc => hpq hc.symm)]; exact hf⟩
      · rw [e13, e1]; omega
    · refine ⟨⟨by rw [hl, e2]; rfl, ?_, ?_, e4, e5, e6, e7, e8⟩, ?_⟩
      · intro q
        rw [e1, hheap]
        simp
      · intro g
        rw [e3, hgrp]
        rfl
      · intro key hn
        rw [e10 key]
        · exact hn
        · rintro rfl
          rw [hk] at hn
          cases hn
  have hpk : p ∈ Dict.keys s.heap := Dict.mem_keys_of_mem (Dict.get?_mem he)
  by_cases hz : k'.vals = [] ∧ k'.refcnt = 0
  · have h5 : subSize (s.stateSize - e.val.length) e.key.length =
        .ok (s.stateSize - e.val.length - e.key.length) := if_pos (by omega)
    have hkk : Dict.get? (Dict.set s.keymap e.key k') e.key = some k' := by simp [Dict.get?_set]
    have hksum' := sum_del _ (fun x : Str × CKey => x.1.length) hkk
    rw [sum_set_same _ (fun x : Str × CKey => x.1.length) (w := k') hk rfl] at hksum'
    simp only at hksum'
    refine ⟨{ removeFromGroups s p with
        lruIds := s.lruIds.done e.lruIdx, lru := rest,
        heap := (s.heap.set p { e with inLru := false }).del p,
        stateSize := s.stateSize - e.val.length - e.key.length, numVals := s.numVals - 1,
        keymap := (s.keymap.set e.key k').del e.key, keyIds := s.keyIds.done k'.idx }, ?_, ?_⟩
    · rw [popOne, hl]
      simp only [bind, Except.bind, removeVal, h1]
      simp only [removeFromLru, hin, removeFromGroups, if_true, removeFromValMap, h2, keyAt, hk, h3, bind,
        Except.bind, maybeRemoveKey, Dict.get?_set, hz, h5, and_self, if_pos]
      rw [if_pos (by exact hz), hrest]
    · refine common _ (del_set _ _ _ hpk) rfl rfl rfl rfl rfl rfl rfl ((h.kwf.set _ _).del _) ?_ ?_ ?_ rfl
      · intro key hne
        simp only
        rw [Dict.get?_del (h.kwf.set _ _), if_neg (fun hc => hne hc.symm), Dict.get?_set,
          if_neg (fun hc => hne hc.symm)]
      · refine Or.inr ⟨?_, hz.1, hz.2⟩
        simp only
        rw [Dict.get?_del (h.kwf.set _ _), if_pos rfl]
      · simp only
        rw [del_set _ _ _ hpk]
        change _ = ((Dict.del (Dict.set s.keymap e.key k') e.key).map fun x => x.1.length).sum + _
        omega
  · refine ⟨{ removeFromGroups s p with
        lruIds := s.lruIds.done e.lruIdx, lru := rest,
        heap := (s.heap.set p { e with inLru := false }).del p,
        stateSize := s.stateSize - e.val.length, numVals := s.numVals - 1,
        keymap := s.keymap.set e.key k' }, ?_, ?_⟩
    · rw [popOne, hl]
      simp only [bind, Except.bind, removeVal, h1]
      simp only [removeFromLru, hin, removeFromGroups, if_true, removeFromValMap, h2, keyAt, hk, h3, bind,
        Except.bind, maybeRemoveKey, Dict.get?_set]
      rw [if_neg (by exact hz), hrest]
    · refine common _ (del_set _ _ _ hpk) rfl rfl rfl rfl rfl rfl rfl (h.kwf.set _ _) ?_ ?_ ?_ rfl
      · intro key hne
        simp only
        rw [Dict.get?_set, if_neg (fun hc => hne hc.symm)]
      · refine Or.inl ?_
        simp only
        rw [Dict.get?_set, if_pos rfl]
      · simp only
        rw [del_set _ _ _ hpk]
        have := sum_set_same _ (fun x : Str × CKey => x.1.length) (w := k') hk rfl
        change _ = ((Dict.set s.keymap e.key k').map fun x => x.1.length).sum + _
        omega

/-! ### Making space -/

/-- The entries that may be evicted: those before the pin. -/
def ev (s : Codec) : List (Option Nat) := s.lru.takeWhile (·.isSome)

/-- The list from the pin on. -/
def beh (s : Codec) : List (Option Nat) := s.lru.dropWhile (·.isSome)

theorem Evict.ev {s s' : Codec} {ps : List Nat} (h : Evict s s' ps) : ev s = ps.map some ++ ev s' := by
  unfold Cpp.ev
  rw [h.lru, List.takeWhile_append_of_pos]
  simp

theorem Evict.beh {s s' : Codec} {ps : List Nat} (h : Evict s s' ps) : beh s' = beh s := by
  unfold Cpp.beh
  rw [h.lru, List.dropWhile_append_of_pos]
  simp

/-- There is room for `space` more bytes and `adding` more values. -/
def Room (s : Codec) (space adding : Nat) : Prop :=
  s.numVals + adding ≤ s.maxVals ∧ s.stateSize + space ≤ s.maxState

theorem popWhile_spec (full : Codec → Bool) {refs : Str → Nat} (n : Nat) {s : Codec} (h : Inv s refs)
    (hp : s.pinned = true) (hn : s.lru.length < n) :
    ∃ go s' ps, popWhile full n s = .ok (go, s') ∧ Inv s' refs ∧ EvictK s s' ps ∧
      (go = true → full s' = false) ∧ (go = false → ev s' = []) := by
  induction n generalizing s with
  | zero => omega
  | succ n ih =>
    rw [popWhile]
    cases hf : full s with
    | false => exact ⟨true, s, [], by simp, h, EvictK.refl s, fun _ => hf, by simp⟩
    | true =>
      simp only [if_true]
      cases hl : s.lru with
      | nil =>
        have := h.pin.2 hp
        rw [hl] at this
        cases this
      | cons x rest =>
        cases x with
        | none =>
          refine ⟨false, s, [], ?_, h, EvictK.refl s, by simp, fun _ => ?_⟩
          · simp [popOne, hl, bind, Except.bind]
          · simp [ev, hl]
        | some p =>
          obtain ⟨s1, e1, h1, v1⟩ := popOne_spec h hl
          have hlen : s1.lru.length < n := by
            have := congrArg List.length v1.lru
            simp only [List.length_append, List.length_map, List.length_cons, List.length_nil] at this
            omega
          obtain ⟨go, s', ps, e2, h2, v2, hx, hy⟩ := ih h1 (v1.pinned.trans hp) hlen
          refine ⟨go, s', [p] ++ ps, ?_, h2, v1.trans v2, hx, hy⟩
          simp only [e1, bind, Except.bind, if_true]
          exact e2

theorem makeSpace_room {s : Codec} {space adding : Nat} (h : Room s space adding) :
    makeSpace s space adding = .ok s := by
  obtain ⟨h1, h2⟩ := h
  have h1' : ¬ (s.numVals + adding > s.maxVals) := by omega
  have h2' : ¬ (s.stateSize + space > s.maxState) := by omega
  simp [makeSpace, popWhile, h1', h2', bind, Except.bind]

theorem makeSpace_spec {s : Codec} {refs : Str → Nat} (space adding : Nat) (h : Inv s refs)
    (hp : s.pinned = true ∨ Room s space adding) :
    ∃ s' ps, makeSpace s space adding = .ok s' ∧ Inv s' refs ∧ EvictK s s' ps ∧
      (Room s' space adding ∨ ev s' = []) ∧ (Room s space adding → s' = s) := by
  by_cases hr : Room s space adding
  · exact ⟨s, [], makeSpace_room hr, h, EvictK.refl s, Or.inl hr, fun _ => rfl⟩
  have hp : s.pinned = true := hp.resolve_right hr
  obtain ⟨go, s1, ps, e1, h1, v1, hx, hy⟩ :=
    popWhile_spec (fun s => decide (s.numVals + adding > s.maxVals)) (s.lru.length + 1) h hp (by omega)
  cases go with
  | false =>
    refine ⟨s1, ps, ?_, h1, v1, Or.inr (hy rfl), fun hc => absurd hc hr⟩
    simp only [makeSpace, bind, Except.bind, e1]
    rfl
  | true =>
    have hx := hx rfl
    simp only [decide_eq_false_iff_not] at hx
    obtain ⟨go, s2, qs, e2, h2, v2, hx2, hy2⟩ :=
      popWhile_spec (fun s => decide (s.stateSize + space > s.maxState)) (s1.lru.length + 1) h1
        (v1.pinned.trans hp) (by omega)
    refine ⟨s2, ps ++ qs, ?_, h2, v1.trans v2, ?_, fun hc => absurd hc hr⟩
    · simp only [makeSpace, bind, Except.bind, e1, if_true, e2]
    · cases go with
      | false => exact Or.inr (hy2 rfl)
      | true =>
        have hx2 := hx2 rfl
        simp only [decide_eq_false_iff_not] at hx2
        refine Or.inl ⟨?_, by omega⟩
        -- the second loop only removes values
        have hn : s2.numVals ≤ s1.numVals := by
          rw [h2.nums, h1.nums]
          have hsub : s2.heap.keys ⊆ s1.heap.keys := by
            intro q hq
            obtain ⟨e, he⟩ := has_iff.1 (has_iff_mem.2 hq)
            rw [v2.heap] at he
            split at he
            · cases he
            · exact has_iff_mem.1 (has_iff.2 ⟨e, he⟩)
          have := (List.Nodup.subperm h2.hwf hsub).length_le
          simpa [Dict.keys] using this
        rw [v2.maxV]
        omega

/-! ### Reference counts -/

/-- `refs` with one more reference to `key`. -/
def bump (refs : Str → Nat) (key : Str) : Str → Nat := fun x => refs x + if x = key then 1 else 0

theorem Inv.setRef {s : Codec} {refs refs' : Str → Nat} {key : Str} {k : CKey} (h : Inv s refs)
    (hk : s.keymap.get? key = some k) (n : Nat) (h1 : refs' key = n) (h2 : ∀ x, x ≠ key → refs' x = refs x) :
    Inv { s with keymap := s.keymap.set key { k with refcnt := n } } refs' := by
  have keyof : ∀ key' kk, Dict.get? (s.keymap.set key { k with refcnt := n }) key' = some kk →
      ∃ k0, s.keymap.get? key' = some k0 ∧ kk.vals = k0.vals ∧ kk.refcnt = refs' key' := by
    intro key' kk hkk
    rw [Dict.get?_set] at hkk
    split at hkk
    · rename_i e
      subst e
      cases hkk
      exact ⟨k, hk, rfl, h1.symm⟩
    · rename_i e
      exact ⟨kk, hkk, rfl, (h.refc _ _ hkk).trans (h2 _ (fun hc => e hc.symm)).symm⟩
  refine ⟨h.kwf.set _ _, h.hwf, h.fresh, ?_, ?_, ?_, ?_, ?_, h.lnd, h.lru, h.pin, h.gwf, h.gin, h.grp, ?_, h.nums⟩
  · intro p e he
    obtain ⟨k0, hk0, hv⟩ := h.up p e he
    simp only [Dict.get?_set]
    split
    · rename_i hc
      rw [← hc, hk] at hk0
      cases hk0
      exact ⟨_, rfl, hv⟩
    · exact ⟨k0, hk0, hv⟩
  · intro key' kk hkk v p hv
    obtain ⟨k0, hk0, ev, _⟩ := keyof key' kk hkk
    exact h.down key' k0 hk0 v p (ev ▸ hv)
  · intro key' kk hkk
    obtain ⟨k0, hk0, ev, _⟩ := keyof key' kk hkk
    exact ev ▸ h.vnd key' k0 hk0
  · intro key' kk hkk
    obtain ⟨k0, hk0, _, er⟩ := keyof key' kk hkk
    exact er
  · intro x hx
    simp only [Dict.get?_set]
    split
    · exact ⟨_, rfl⟩
    · rename_i hc
      exact h.refk x (by rw [← h2 x (fun e => hc e.symm)]; exact hx)
  · rw [h.size]
    simp only
    rw [sum_set_same _ (fun x : Str × CKey => x.1.length) (w := { k with refcnt := n }) hk rfl]

/-- The parts that counting references leaves alone. -/
structure SameBut (s s' : Codec) : Prop where
  heap : s'.heap = s.heap
  lru : s'.lru = s.lru
  groups : s'.groups = s.groups
  maxS : s'.maxState = s.maxState
  maxV : s'.maxVals = s.maxVals
  size : s'.stateSize = s.stateSize
  nums : s'.numVals = s.numVals
  pinned : s'.pinned = s.pinned
  nextPtr : s'.nextPtr = s.nextPtr
  fc : s'.frameCount = s.frameCount
  keys : s'.keymap.keys = s.keymap.keys
  vals : ∀ key k, s.keymap.get? key = some k → ∃ k', s'.keymap.get? key = some k' ∧ k'.vals = k.vals ∧ k'.idx = k.idx

theorem SameBut.refl (s : Codec) : SameBut s s :=
  ⟨rfl, rfl, rfl, rfl, rfl, rfl, rfl, rfl, rfl, rfl, rfl, fun _ k h => ⟨k, h, rfl, rfl⟩⟩

theorem SameBut.trans {s s' s'' : Codec} (h : SameBut s s') (h' : SameBut s' s'') : SameBut s s'' where
  heap := h'.heap.trans h.heap
  lru := h'.lru.trans h.lru
  groups := h'.groups.trans h.groups
  maxS := h'.maxS.trans h.maxS
  maxV := h'.maxV.trans h.maxV
  size := h'.size.trans h.size
  nums := h'.nums.trans h.nums
  pinned := h'.pinned.trans h.pinned
  nextPtr := h'.nextPtr.trans h.nextPtr
  fc := h'.fc.trans h.fc
  keys := h'.keys.trans h.keys
  vals := by
    intro key k hk
    obtain ⟨k1, h1, e1, i1⟩ := h.vals key k hk
    obtain ⟨k2, h2, e2, i2⟩ := h'.vals key k1 h1
    exact ⟨k2, h2, e2.trans e1, i2.trans i1⟩

theorem sameBut_setRef {s : Codec} {key : Str} {k : CKey} (hk : s.keymap.get? key = some k) (n : Nat) :
    SameBut s { s with keymap := s.keymap.set key { k with refcnt := n } } := by
  refine ⟨rfl, rfl, rfl, rfl, rfl, rfl, rfl, rfl, rfl, rfl, ?_, ?_⟩
  · simp only [Dict.keys_set]
    rw [if_pos (Dict.mem_keys_of_mem (Dict.get?_mem hk))]
  · intro key' k' hk'
    simp only [Dict.get?_set]
    split
    · rename_i e
      subst e
      rw [hk] at hk'
      cases hk'
      exact ⟨_, rfl, rfl, rfl⟩
    · exact ⟨k', hk', rfl, rfl⟩

theorem incRef_spec {s : Codec} {refs : Str → Nat} {key : Str} (h : Inv s refs) (hk : s.keymap.has key = true) :
    ∃ s', incRef s key = .ok s' ∧ Inv s' (bump refs key) ∧ SameBut s s' := by
  obtain ⟨k, hk⟩ := has_iff.1 hk
  refine ⟨{ s with keymap := s.keymap.set key { k with refcnt := k.refcnt + 1 } }, ?_, ?_, sameBut_setRef hk _⟩
  · simp [incRef, keyAt, hk, bind, Except.bind]
  · refine h.setRef hk _ ?_ ?_
    · simp [bump, h.refc key k hk]
    · intro x hx
      simp [bump, hx]

theorem decRef_spec {s : Codec} {refs : Str → Nat} {key : Str} (h : Inv s (bump refs key)) :
    ∃ s', decRef s key = .ok s' ∧ Inv s' refs ∧ SameBut s s' := by
  obtain ⟨k, hk⟩ := h.refk key (by simp [bump])
  have hr := h.refc key k hk
  simp only [bump, if_true] at hr
  refine ⟨{ s with keymap := s.keymap.set key { k with refcnt := k.refcnt - 1 } }, ?_, ?_, sameBut_setRef hk _⟩
  · have : k.refcnt ≠ 0 := by omega
    simp [decRef, keyAt, hk, bind, Except.bind, this]
  · refine h.setRef hk _ (by omega) ?_
    intro x hx
    simp [bump, hx]

end Verif.Cpp
