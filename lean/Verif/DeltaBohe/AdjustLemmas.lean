import Verif.DeltaBohe.StoreLemmas
import Mathlib.Data.List.Sort
/-
delta_bohe: renumbering the entries of the header group, and one message while there is room.
-/
namespace Verif.DeltaBohe
open Verif Verif.Bits Verif.Huff Verif.Bohe

/-! ### Clones -/

theorem popOne_keyIdx {c c' : Codec} (h : popOne c = .ok c') : c'.keyIdx = c.keyIdx := by
  unfold popOne at h
  split at h
  · cases h; rfl
  · cases h; rfl
  · dsimp only at h
    split at h
    · cases h
    · cases h
      unfold removeVal
      dsimp only
      split <;> rfl

theorem makeSpace_keyIdx {c c' : Codec} {n : Nat} {a : Int} (h : makeSpace c n a = .ok c') : c'.keyIdx = c.keyIdx := by
  unfold makeSpace at h
  split at h
  · exact popOne_keyIdx h
  · split at h
    · cases h
    · cases h; rfl

theorem refCnt_keyIdx (c : Codec) (k : Str) (n : Int) : (refCnt c k n).keyIdx = c.keyIdx := by
  obtain ⟨⟨km, e⟩, -⟩ := refCnt_same c k n
  rw [e]

/-- Key indices stay. -/
theorem storeEntry_keyIdx {c c' : Codec} {k v : Str} (h : storeEntry c k v = .ok c') {i : Nat} {x : Str}
    (hi : c.keyIdx.get? i = some x) : c'.keyIdx.get? i = some x := by
  unfold storeEntry insertVal at h
  cases e1 : findOrAddKey c k with
  | error e => simp only [e1, bind, Except.bind] at h; cases h
  | ok c1 =>
    simp only [e1, bind, Except.bind] at h
    have h1 : c1.keyIdx.get? i = some x := by
      unfold findOrAddKey at e1
      split at e1
      · cases e1; exact hi
      · cases e2 : makeSpace c (List.length k) 0 with
        | error e => simp only [e2, bind, Except.bind] at e1; cases e1
        | ok c2 =>
          simp only [e2, bind, Except.bind] at e1
          split at e1
          · cases e1
          · next hh =>
            cases e1
            have h2 := makeSpace_keyIdx e2
            show Dict.get? (c2.keyIdx.set (c2.nextKey + 1) k) i = some x
            rw [Dict.get?_set, if_neg]
            · rw [h2]; exact hi
            · rintro rfl
              apply hh
              rw [Dict.has, h2, hi]; rfl
    by_cases hf : (findVal c1 k v).isSome = true
    · simp only [hf, if_true] at h; cases h
    · simp only [hf, if_false, Bool.false_eq_true] at h
      cases e2 : makeSpace (refCnt c1 k 1) (List.length v) 1 with
      | error e => simp only [e2] at h; cases h
      | ok c2 =>
        simp only [e2, pure, Except.pure] at h
        have h2 := makeSpace_keyIdx e2
        rw [refCnt_keyIdx] at h2
        have h3 := refCnt_keyIdx { c2 with numVals := c2.numVals + 1 } k (-1)
        generalize refCnt { c2 with numVals := c2.numVals + 1 } k (-1) = d at *
        cases hg : d.generation with
        | none => simp only [hg] at h; cases h
        | some g =>
          simp only [hg] at h
          cases h
          show Dict.get? d.keyIdx i = some x
          rw [h3]
          show Dict.get? c2.keyIdx i = some x
          rw [h2]; exact h1

theorem cloneAll_eq (f : Hdr → Nat × Str × Bool) (hf : ∀ kv, (f kv).2.1 = kv.2) (kvs : List Hdr) : ∀ {c : Codec}
    (_ : ∀ kv ∈ kvs, c.keyIdx.get? (f kv).1 = some kv.1), cloneAll (kvs.map f) c = storeAll kvs c := by
  induction kvs with
  | nil => intro c _; rfl
  | cons kv kvs ih =>
    intro c hc
    have h1 := hc kv (by simp)
    have h2 := hf kv
    obtain ⟨i, v, b⟩ : Nat × Str × Bool := f kv
    simp only [List.map_cons]
    generalize hfk : f kv = p at *
    obtain ⟨i, v, b⟩ := p
    simp only at h1 h2
    subst h2
    simp only [cloneAll, h1, storeAll, bind, Except.bind]
    cases hs : storeEntry c kv.1 kv.2 with
    | error e => rfl
    | ok c' => exact ih fun x hx => storeEntry_keyIdx hs (hc x (by simp [hx]))

theorem kvstoAll_eq (f : Hdr → Str × Str × Bool) (hf : ∀ kv, ((f kv).1, (f kv).2.1) = kv) (kvs : List Hdr) : ∀ {c : Codec},
    kvstoAll (kvs.map f) c = storeAll kvs c := by
  induction kvs with
  | nil => intro c; rfl
  | cons kv kvs ih =>
    intro c
    have h2 := hf kv
    simp only [List.map_cons]
    generalize f kv = p at *
    obtain ⟨k, v, b⟩ := p
    subst h2
    simp only [kvstoAll, storeAll, bind, Except.bind]
    cases hs : storeEntry c k v with
    | error e => rfl
    | ok c' => exact ih

theorem storeAll_append (a b : List Hdr) : ∀ c : Codec, storeAll (a ++ b) c = (storeAll a c).bind (storeAll b) := by
  induction a with
  | nil => intro c; rfl
  | cons kv a ih =>
    intro c
    simp only [List.cons_append, storeAll, bind, Except.bind]
    cases storeEntry c kv.1 kv.2 with
    | error e => rfl
    | ok c' => exact ih c'

/-! ### Renumbering -/

/-- Giving an entry another index. -/
def reidx (i j : Nat) (e : VE) : VE := if e.idx = i then { e with idx := j } else e

theorem reidx_kv (i j : Nat) (e : VE) : (reidx i j e).kv = e.kv := by unfold reidx; split <;> rfl
theorem reidx_gen (i j : Nat) (e : VE) : (reidx i j e).gen = e.gen := by unfold reidx; split <;> rfl

theorem filterMap_perm_filter (p : Option VE → Bool) (l : List (Option VE)) :
    (l.filter (fun x => !p x) ++ l.filter p).Perm l :=
  (List.perm_append_comm).trans (List.filter_append_perm p l)

theorem renumber_entries (c : Codec) (i : Nat) :
    (renumber c i).entries.Perm (c.entries.map (reidx i (c.nextLru + 1))) := by
  have h1 : (renumber c i).entries =
      (c.statics ++ (c.lru.filter (fun x => !isIdx i x) ++ c.lru.filter (isIdx i)).filterMap id).map (reidx i (c.nextLru + 1)) := by
    have := entries_mapE (reidx i (c.nextLru + 1))
      { c with lru := c.lru.filter (fun x => !isIdx i x) ++ c.lru.filter (isIdx i) }
    exact this
  rw [h1]
  exact ((List.Perm.append_left _ ((filterMap_perm_filter (isIdx i) c.lru).filterMap id))).map _

theorem renumber_rest (c : Codec) (i : Nat) : (renumber c i).keyMap = c.keyMap ∧ (renumber c i).keyIdx = c.keyIdx ∧
    (renumber c i).nextKey = c.nextKey ∧ (renumber c i).nextLru = c.nextLru + 1 ∧ (renumber c i).stateSize = c.stateSize ∧
    (renumber c i).numVals = c.numVals ∧ (renumber c i).generation = c.generation := ⟨rfl, rfl, rfl, rfl, rfl, rfl, rfl⟩

theorem renumber_nopin {c : Codec} (h : none ∉ c.lru) (i : Nat) : none ∉ (renumber c i).lru := by
  have : (renumber c i).lru = (c.lru.filter (fun x => !isIdx i x) ++ c.lru.filter (isIdx i)).map
      (Option.map (reidx i (c.nextLru + 1))) := rfl
  rw [this]
  intro hm
  obtain ⟨x, hx, he⟩ := List.mem_map.1 hm
  cases x with
  | none =>
    rcases List.mem_append.1 hx with hx | hx
    · exact h (List.mem_of_mem_filter hx)
    · exact h (List.mem_of_mem_filter hx)
  | some e => cases he

theorem Core.renumber {c : Codec} (h : Core c) (i : Nat) : Core (renumber c i) := by
  have hp := renumber_entries c i
  have hkv : (VE.kv ∘ reidx i (c.nextLru + 1)) = VE.kv := funext (reidx_kv _ _)
  refine ⟨?_, ?_, ?_, ?_, h.keyIdx, h.keyLe, ?_⟩
  · rw [(hp.map VE.idx).nodup_iff, List.map_map]
    refine List.Nodup.map_on ?_ (List.Nodup.of_map _ h.idx)
    intro a ha b hb he
    have la := h.idxLe a ha
    have lb := h.idxLe b hb
    simp only [Function.comp, reidx] at he
    refine h.idx_inj ha hb ?_
    split at he <;> split at he <;> simp_all
    omega
  · intro e he
    obtain ⟨x, hx, rfl⟩ := List.mem_map.1 (hp.mem_iff.1 he)
    have := h.idxLe x hx
    show (reidx i (c.nextLru + 1) x).idx ≤ c.nextLru + 1
    unfold reidx
    split
    · exact le_rfl
    · omega
  · rw [(hp.map VE.kv).nodup_iff, List.map_map, hkv]
    exact h.kv
  · intro e he
    obtain ⟨x, hx, rfl⟩ := List.mem_map.1 (hp.mem_iff.1 he)
    have := h.keys x hx
    have e1 : (reidx i (c.nextLru + 1) x).key = x.key := congrArg Prod.fst (reidx_kv _ _ _)
    rw [e1]
    exact this
  · rw [hp.length_eq, List.length_map]
    exact h.num

/-- The index after renumbering the entries with indices `is`, when `n` was the last one given away. -/
def newIdx (is : List Nat) (n i : Nat) : Nat := if i ∈ is then n + 1 + is.idxOf i else i

theorem renumberAll_spec (is : List Nat) : ∀ {c : Codec} (_ : Core c) (_ : is.Nodup) (_ : ∀ i ∈ is, i ≤ c.nextLru),
    Core (is.foldl renumber c) ∧ (none ∉ c.lru → none ∉ (is.foldl renumber c).lru) ∧
    (is.foldl renumber c).entries.Perm (c.entries.map fun e => { e with idx := newIdx is c.nextLru e.idx }) ∧
    (is.foldl renumber c).keyMap = c.keyMap ∧ (is.foldl renumber c).nextLru = c.nextLru + is.length ∧
    (is.foldl renumber c).stateSize = c.stateSize ∧ (is.foldl renumber c).numVals = c.numVals ∧
    (is.foldl renumber c).generation = c.generation := by
  induction is with
  | nil =>
    intro c h _ _
    refine ⟨h, fun h => h, ?_, rfl, rfl, rfl, rfl, rfl⟩
    simp [newIdx]
  | cons i is ih =>
    intro c h hn hle
    rw [List.nodup_cons] at hn
    have hn1 := (renumber_rest c i).2.2.2.1
    obtain ⟨r1, r2, r3, r4, r5, r6, r7, r8⟩ := ih (h.renumber i) hn.2 (fun j hj => by
      have := hle j (by simp [hj])
      rw [hn1]; omega)
    simp only [List.foldl_cons]
    refine ⟨r1, fun h => r2 (renumber_nopin h i), ?_, r4, ?_, r6, r7, r8⟩
    · refine r3.trans (((renumber_entries c i).map _).trans ?_)
      rw [List.map_map]
      apply List.Perm.of_eq
      refine List.map_congr_left fun e he => ?_
      simp only [Function.comp, hn1]
      have hi := hle i (by simp)
      unfold reidx
      by_cases e1 : e.idx = i
      · rw [if_pos e1]
        have : c.nextLru + 1 ∉ is := fun hm => by have := hle _ (List.mem_cons_of_mem _ hm); omega
        simp [newIdx, e1, this]
      · rw [if_neg e1]
        have e2 : i ≠ e.idx := fun h => e1 h.symm
        by_cases e3 : e.idx ∈ is
        · simp only [newIdx, e3, if_true, List.mem_cons, or_true, List.idxOf_cons_ne _ e2]
          congr 1
          omega
        · simp [newIdx, e3, e1]
    · rw [r5, hn1]
      simp
      omega

theorem adjust_spec {c : Codec} (h : Core c) :
    ∃ is : List Nat, is.Nodup ∧ (∀ i, i ∈ is ↔ ∃ e ∈ c.entries, e.gen.isSome ∧ e.idx = i) ∧ is.Pairwise (· < ·) ∧
      is.length = (c.entries.filter fun e => e.gen.isSome).length ∧
      adjust c = is.foldl renumber c := by
  refine ⟨_, ?_, ?_, ?_, ?_, rfl⟩
  · rw [((sortBy_perm _ _).map VE.idx).nodup_iff]
    exact (List.filter_sublist.map VE.idx).nodup h.idx
  · intro i
    rw [((sortBy_perm _ _).map VE.idx).mem_iff]
    simp only [List.mem_map, List.mem_filter]
    constructor
    · rintro ⟨e, ⟨h1, h2⟩, h3⟩; exact ⟨e, h1, h2, h3⟩
    · rintro ⟨e, h1, h2, h3⟩; exact ⟨e, ⟨h1, h2⟩, h3⟩
  · have hs := sortBy_sorted (fun a b : VE => decide (a.idx ≤ b.idx)) (fun a b => by simp; omega)
      (fun a b c => by simp; omega) (c.entries.filter fun e => e.gen.isSome)
    have hn : ((sortBy (fun a b : VE => decide (a.idx ≤ b.idx)) (c.entries.filter fun e => e.gen.isSome)).map VE.idx).Nodup := by
      rw [((sortBy_perm _ _).map VE.idx).nodup_iff]
      exact (List.filter_sublist.map VE.idx).nodup h.idx
    rw [List.pairwise_map]
    rw [List.Nodup, List.pairwise_map] at hn
    refine (hs.and hn).imp ?_
    rintro a b ⟨h1, h2⟩
    simp at h1
    omega
  · rw [List.length_map, (sortBy_perm _ _).length_eq]

end Verif.DeltaBohe
