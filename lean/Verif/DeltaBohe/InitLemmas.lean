import Verif.DeltaBohe.MessageLemmas
/-
delta_bohe: the constructor.
-/
namespace Verif.DeltaBohe
open Verif Verif.Bits Verif.Huff Verif.Bohe

/-- Building the table from a list of different headers. -/
theorem initLoop_spec (kvs : List Hdr) : ∀ {c : Codec} (_ : Core c) (_ : Sized c) (_ : c.numVals + kvs.length ≤ maxVals) (_ : kvs.Nodup)
    (_ : ∀ kv ∈ kvs, kv ∉ c.entries.map VE.kv)
    (_ : ∀ kv ∈ kvs, c.stateSize + (kvs.map fun kv => kv.1.length).sum + kv.2.length ≤ maxStateSize) (_ : ∀ e ∈ c.entries, e.gen = none)
    (_ : c.lru = []),
    ∃ c', initLoop kvs c = .ok c' ∧ Core c' ∧ Sized c' ∧ c'.statics.map VE.kv = c.statics.map VE.kv ++ kvs ∧ c'.lru = [] ∧
      c'.nextLru = c.nextLru + kvs.length ∧ c'.numVals = c.numVals + kvs.length ∧ c'.generation = c.generation ∧
      (∀ e ∈ c'.entries, e.gen = none) ∧ ∀ x, (keyOf c' x).isSome ↔ (keyOf c x).isSome ∨ x ∈ kvs.map (·.1) := by
  induction kvs with
  | nil =>
    intro c h hz _ _ _ _ hg hl
    exact ⟨c, rfl, h, hz, by simp, hl, by simp, by simp, rfl, hg, by simp⟩
  | cons kv kvs ih =>
    intro c h hz hcap hn hnew hfit hg hl
    obtain ⟨k, v⟩ := kv
    rw [List.nodup_cons] at hn
    simp only [List.length_cons] at hcap
    push_cast at hcap
    have hf := hfit (k, v) (by simp)
    simp only [List.map_cons, List.sum_cons] at hf
    push_cast at hf
    rcases insertVal_spec h (by omega) k v with ⟨-, e2⟩ | ⟨-, -, e3⟩ | ⟨d, e1, hne, hi⟩
    · exact absurd e2 (hnew (k, v) (by simp))
    · exfalso
      split at e3
      · push_cast at e3; omega
      · omega
    · have hp : (({ d with nextLru := d.nextLru + 1, statics := d.statics ++ [{ idx := d.nextLru + 1, key := k, val := v }] } : Codec).entries).Perm
          (⟨c.nextLru + 1, k, v, none⟩ :: c.entries) := by
        simp only [Codec.entries, hi.statics, hi.lru, hl, hi.next]
        simp only [List.filterMap_nil, List.append_nil]
        exact List.perm_append_singleton _ _
      have hc' := hi.core h hne hp (by simp only [hi.next]) rfl rfl rfl rfl
      have hsz := hi.size
      have hle : d.stateSize ≤ c.stateSize + List.length k := by
        rw [hsz]
        split
        · push_cast; omega
        · omega
      obtain ⟨c', r1, r2, r3, r4, r5, r6, r7, r8, r9, r10⟩ := ih hc' ⟨(hi.sized hz).wf, (hi.sized hz).size⟩
        (by have := hi.num; show d.numVals + _ ≤ _; omega) hn.2
        (fun x hx hm => by
          have hm := (hp.map VE.kv).mem_iff.1 hm
          rw [List.map_cons, List.mem_cons] at hm
          rcases hm with rfl | hm
          · exact hn.1 hx
          · exact hnew x (by simp [hx]) hm)
        (fun x hx => by
          have := hfit x (by simp [hx])
          simp only [List.map_cons, List.sum_cons] at this
          push_cast at this
          show d.stateSize + _ + _ ≤ _
          omega)
        (fun e he => by
          rcases List.mem_cons.1 (hp.mem_iff.1 he) with rfl | he
          · rfl
          · exact hg e he)
        (hi.lru.trans hl)
      refine ⟨c', ?_, r2, r3, ?_, r5, ?_, ?_, r8.trans hi.gen, r9, ?_⟩
      · simp only [initLoop, e1, bind, Except.bind]
        exact r1
      · rw [r4]
        simp [hi.statics, VE.kv]
      · rw [r6]
        simp only [hi.next, List.length_cons]
        omega
      · rw [r7]
        show d.numVals + _ = _
        rw [hi.num]
        simp only [List.length_cons]
        push_cast
        omega
      · intro x
        rw [r10]
        show (keyOf d x).isSome ∨ _ ↔ _
        rw [hi.key]
        simp only [List.map_cons, List.mem_cons]
        by_cases hx : x = k
        · subst hx
          cases hk : keyOf c x <;> simp
        · simp [hx]

theorem empty_core : Core {} := by
  refine ⟨?_, ?_, ?_, ?_, ?_, ?_, ?_⟩
  · simp [Codec.entries]
  · simp [Codec.entries]
  · simp [Codec.entries]
  · simp [Codec.entries]
  · intro k i hi; simp [keyOf, Dict.get?] at hi
  · simp [Dict.keys]
  · simp [Codec.entries]

/-- The fresh codec. -/
theorem init_spec {kvs : List Hdr} (hp : kvs.Perm defaultDict) : ∃ c, Codec.init kvs = .ok c ∧ Inv c ∧ Sized c ∧
    c.entries.map VE.kv = kvs ∧ c.lru = [] ∧ c.nextLru = 63 ∧ c.numVals = 63 ∧ c.generation = none ∧
    (∀ e ∈ c.entries, e.gen = none) ∧ (∀ x, x ∈ c.keyMap.keys ↔ x ∈ defaultDict.map (·.1)) ∧ c.stateSize = 664 := by
  have hlen : kvs.length = 63 := by rw [hp.length_eq]; decide
  have hnd : defaultDict.Nodup := by decide +kernel
  have hnk : (defaultDict.map (·.1)).Nodup := by decide +kernel
  have hsum : (kvs.map fun kv => kv.1.length).sum = 664 := by
    rw [(hp.map fun kv => kv.1.length).sum_eq]
    decide +kernel
  have hv : ∀ kv ∈ kvs, kv.2.length ≤ 10 := by
    intro kv hm
    have : ∀ kv ∈ defaultDict, kv.2.length ≤ 10 := by decide +kernel
    exact this kv (hp.mem_iff.1 hm)
  obtain ⟨c, r1, r2, r3, r4, r5, r6, r7, r8, r9, r10⟩ := initLoop_spec kvs empty_core ⟨by simp [Dict.WF, Dict.keys], by simp [nameSize, Dict.keys]⟩
    (by rw [hlen]; decide) (hp.nodup_iff.2 hnd) (by simp [Codec.entries])
    (fun kv hm => by
      have := hv kv hm
      rw [hsum]
      show (0 : Int) + _ + _ ≤ 64 * 1024
      omega) (by simp [Codec.entries]) rfl
  have hent : c.entries.map VE.kv = kvs := by
    simp only [Codec.entries, r5, List.filterMap_nil, List.append_nil, r4]
    rfl
  have hkeys : ∀ x, x ∈ c.keyMap.keys ↔ x ∈ defaultDict.map (·.1) := by
    intro x
    rw [mem_keyMap, r10, ← (hp.map (·.1)).mem_iff]
    simp [keyOf, Dict.get?]
  refine ⟨c, r1, ⟨r2, by rw [r5]; simp, fun e he n hn => ?_⟩, r3, hent, r5, by rw [r6, hlen], by rw [r7, hlen]; rfl, r8, r9, hkeys, ?_⟩
  · rw [r9 e he] at hn; cases hn
  · rw [r3.size]
    have : c.keyMap.keys.Perm (defaultDict.map (·.1)) := by
      rw [List.perm_ext_iff_of_nodup r3.wf hnk]
      exact hkeys
    unfold nameSize
    rw [(this.map List.length).sum_eq]
    decide +kernel

end Verif.DeltaBohe
