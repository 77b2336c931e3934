import Verif.DeltaBohe.MakeLemmas
import Mathlib.Data.List.Dedup
/-
delta_bohe: storing values while there is room for them.
-/
namespace Verif.DeltaBohe
open Verif Verif.Bits Verif.Huff Verif.Bohe

/-- The length of all names together. -/
def nameSize (c : Codec) : Int := ((c.keyMap.keys.map List.length).sum : Nat)

/-- Names are counted exactly. -/
structure Sized (c : Codec) : Prop where
  wf : c.keyMap.WF
  size : c.stateSize = nameSize c

/-- What storing one value does. -/
structure Stored (c : Codec) (g : Nat) (k v : Str) (c' : Codec) : Prop where
  statics : c'.statics = c.statics
  lru : c'.lru = c.lru ++ [some ⟨c.nextLru + 1, k, v, some g⟩]
  next : c'.nextLru = c.nextLru + 1
  num : c'.numVals = c.numVals + 1
  gen : c'.generation = some g
  key : ∀ x, keyOf c' x = if x = k ∧ keyOf c k = none then some (c.nextKey + 1) else keyOf c x
  keyIdx : ∀ i x, c.keyIdx.get? i = some x → c'.keyIdx.get? i = some x
  core : Core c'
  size : c'.stateSize = c.stateSize + (if (keyOf c k).isSome then 0 else k.length : Nat)
  sized : Sized c → Sized c'
  fits : c'.stateSize + v.length ≤ maxStateSize

theorem mem_keyMap (c : Codec) (k : Str) : k ∈ c.keyMap.keys ↔ (keyOf c k).isSome := by
  rw [← has_key, Dict.has]
  constructor
  · intro h
    cases hg : c.keyMap.get? k with
    | none => exact absurd h (Dict.get?_none.1 hg)
    | some x => rfl
  · intro h
    cases hg : c.keyMap.get? k with
    | none => rw [hg] at h; cases h
    | some x => exact Dict.mem_keys_of_mem (Dict.get?_mem hg)

theorem entries_append (c : Codec) (e : VE) (c' : Codec) (hs : c'.statics = c.statics) (hl : c'.lru = c.lru ++ [some e]) :
    c'.entries = c.entries ++ [e] := by
  simp [Codec.entries, hs, hl]

/-- Adding a key. -/
theorem findOrAddKey_spec {c : Codec} (h : Core c) (hcap : c.numVals ≤ maxVals) (k : Str) :
    (findOrAddKey c k = .error .name ∧ keyOf c k = none ∧ maxStateSize < c.stateSize + k.length) ∨
    ∃ c', findOrAddKey c k = .ok c' ∧ Core c' ∧ (∃ km ki n z, c' = { c with keyMap := km, keyIdx := ki, nextKey := n, stateSize := z }) ∧
      (∀ x, keyOf c' x = if x = k ∧ keyOf c k = none then some (c.nextKey + 1) else keyOf c x) ∧
      (∀ i x, c.keyIdx.get? i = some x → c'.keyIdx.get? i = some x) ∧
      c'.stateSize = c.stateSize + (if (keyOf c k).isSome then 0 else k.length : Nat) ∧ (Sized c → Sized c') ∧
      (keyOf c' k).isSome := by
  unfold findOrAddKey
  rw [has_key]
  cases hk : keyOf c k with
  | some i =>
    right
    refine ⟨c, by simp, h, ⟨c.keyMap, c.keyIdx, c.nextKey, c.stateSize, rfl⟩, fun x => ?_, fun i x h => h, by simp, fun h => h, by rw [hk]; rfl⟩
    simp
  | none =>
    simp only [Option.isSome_none, Bool.false_eq_true, if_false]
    unfold makeSpace
    rw [if_neg (by omega)]
    by_cases hs : maxStateSize < c.stateSize + k.length
    · left
      rw [if_pos hs]
      exact ⟨rfl, trivial, hs⟩
    · right
      have hni : c.nextKey + 1 ∉ c.keyIdx.keys := fun hm => by have := h.keyLe _ hm; omega
      have hhas : c.keyIdx.has (c.nextKey + 1) = false := by
        rw [Dict.has, Dict.get?_none.2 hni]; rfl
      rw [if_neg hs]
      simp only [bind, Except.bind, hhas, Bool.false_eq_true, if_false, pure, Except.pure]
      have hkm : c.keyMap.get? k = none := (get_key_none c k).2 hk
      have hkey : ∀ x, keyOf { c with keyMap := c.keyMap.set k { idx := c.nextKey + 1 } } x =
          if x = k ∧ True then some (c.nextKey + 1) else keyOf c x := by
        intro x
        simp only [keyOf, Dict.get?_set, and_true]
        split
        · next e => simp [e]
        · next e => rw [if_neg (Ne.symm e)]
      refine ⟨_, rfl, ?_, ⟨_, _, _, _, rfl⟩, fun x => hkey x, fun i x hi => ?_, by simp, ?_, ?_⟩
      · refine ⟨h.idx, h.idxLe, h.kv, fun e he => ?_, fun x i hi => ?_, fun i hi => ?_, h.num⟩
        · have h1 := h.keys e he
          have h2 := hkey e.key
          show (keyOf { c with keyMap := c.keyMap.set k { idx := c.nextKey + 1 } } e.key).isSome
          rw [h2]
          split
          · rfl
          · exact h1
        · have h2 := hkey x
          change keyOf { c with keyMap := c.keyMap.set k { idx := c.nextKey + 1 } } x = some i at hi
          rw [h2] at hi
          show Dict.get? (c.keyIdx.set (c.nextKey + 1) k) i = some x
          rw [Dict.get?_set]
          split at hi
          · next e => cases hi; simp [e.1]
          · next e =>
            have h3 := h.keyIdx x i hi
            have : c.nextKey + 1 ≠ i := by
              rintro rfl
              exact hni (Dict.mem_keys_of_mem (Dict.get?_mem h3))
            rw [if_neg this]
            exact h3
        · change i ∈ (c.keyIdx.set (c.nextKey + 1) k).keys at hi
          rw [Dict.keys_set, if_neg hni] at hi
          show i ≤ c.nextKey + 1
          rcases List.mem_append.1 hi with hi | hi
          · have := h.keyLe i hi; omega
          · simp at hi; omega
      · show Dict.get? (c.keyIdx.set (c.nextKey + 1) k) i = some x
        rw [Dict.get?_set, if_neg]
        · exact hi
        · rintro rfl
          exact hni (Dict.mem_keys_of_mem (Dict.get?_mem hi))
      · rintro ⟨hw, hz⟩
        refine ⟨hw.set _ _, ?_⟩
        have hnk : k ∉ c.keyMap.keys := Dict.get?_none.1 hkm
        simp only [nameSize, Dict.keys_set, if_neg hnk, hz]
        simp
      · show (keyOf { c with keyMap := c.keyMap.set k { idx := c.nextKey + 1 } } k).isSome
        rw [hkey]
        simp

/-- What InsertVal does. -/
structure Inserted (c : Codec) (k v : Str) (d : Codec) : Prop where
  statics : d.statics = c.statics
  lru : d.lru = c.lru
  next : d.nextLru = c.nextLru
  gen : d.generation = c.generation
  num : d.numVals = c.numVals + 1
  key : ∀ x, keyOf d x = if x = k ∧ keyOf c k = none then some (c.nextKey + 1) else keyOf c x
  keep : ∀ i x, c.keyIdx.get? i = some x → d.keyIdx.get? i = some x
  keyIdx : ∀ x i, keyOf d x = some i → d.keyIdx.get? i = some x
  keyLe : ∀ i ∈ d.keyIdx.keys, i ≤ d.nextKey
  has : (keyOf d k).isSome
  size : d.stateSize = c.stateSize + (if (keyOf c k).isSome then 0 else k.length : Nat)
  sized : Sized c → Sized d
  fits : d.stateSize + v.length ≤ maxStateSize

theorem insertVal_spec {c : Codec} (h : Core c) (hcap : c.numVals + 1 ≤ maxVals) (k v : Str) :
    (insertVal c k v = .error .standard ∧ (k, v) ∈ c.entries.map VE.kv) ∨
    (insertVal c k v = .error .name ∧ (k, v) ∉ c.entries.map VE.kv ∧
      maxStateSize < c.stateSize + (if (keyOf c k).isSome then 0 else k.length : Nat) + v.length) ∨
    ∃ d, insertVal c k v = .ok d ∧ (k, v) ∉ c.entries.map VE.kv ∧ Inserted c k v d := by
  have hin : (k, v) ∈ c.entries.map VE.kv → (keyOf c k).isSome := by
    intro hm
    obtain ⟨e, he, hkv⟩ := List.mem_map.1 hm
    have := h.keys e he
    rwa [show e.key = k from congrArg Prod.fst hkv] at this
  unfold insertVal
  rcases findOrAddKey_spec h (by omega) k with ⟨e1, e2, e3⟩ | ⟨c1, e1, hc1, ⟨km, ki, n, z, hc1e⟩, hkey, hki, hsz, hsd, hks⟩
  · right; left
    refine ⟨by simp only [e1, bind, Except.bind], fun hm => ?_, ?_⟩
    · have := hin hm; rw [e2] at this; cases this
    · rw [e2]; simp only [Option.isSome_none, Bool.false_eq_true, if_false]; omega
  · have hent : c1.entries = c.entries := by rw [hc1e]; rfl
    simp only [e1, bind, Except.bind]
    cases hf : findVal c1 k v with
    | some e =>
      left
      obtain ⟨he, hkv⟩ := findVal_some hf
      rw [hent] at he
      exact ⟨rfl, List.mem_map.2 ⟨e, he, hkv⟩⟩
    | none =>
      right
      have hnew : (k, v) ∉ c.entries.map VE.kv := by rw [← hent]; exact findVal_none.1 hf
      simp only [Option.isSome_none, Bool.false_eq_true, if_false]
      have hr1 := refCnt_same c1 k 1
      have hnum : (refCnt c1 k 1).numVals = c.numVals := by
        obtain ⟨⟨km', e⟩, -⟩ := hr1
        rw [e, hc1e]
      have hst : (refCnt c1 k 1).stateSize = c1.stateSize := by
        obtain ⟨⟨km', e⟩, -⟩ := hr1
        rw [e]
      unfold makeSpace
      rw [if_neg (by omega)]
      by_cases hs : maxStateSize < (refCnt c1 k 1).stateSize + v.length
      · left
        rw [if_pos hs]
        exact ⟨rfl, hnew, by rw [hst, hsz] at hs; exact hs⟩
      · right
        rw [if_neg hs]
        simp only [pure, Except.pure]
        have hr2 := refCnt_same { refCnt c1 k 1 with numVals := (refCnt c1 k 1).numVals + 1 } k (-1)
        obtain ⟨⟨km2, e2⟩, hk2, hkk2⟩ := hr2
        obtain ⟨⟨km1, e1'⟩, hk1, hkk1⟩ := hr1
        generalize hd : refCnt { refCnt c1 k 1 with numVals := (refCnt c1 k 1).numVals + 1 } k (-1) = d at *
        have hkeyd : ∀ x, keyOf d x = keyOf c1 x := fun x => (hk2 x).trans (hk1 x)
        have hdki : d.keyIdx = c1.keyIdx := by rw [e2, e1']
        have hdnk : d.nextKey = c1.nextKey := by rw [e2, e1']
        have hdss : d.stateSize = c1.stateSize := by rw [e2, e1']
        refine ⟨_, rfl, hnew, by rw [e2, e1', hc1e], by rw [e2, e1', hc1e], by rw [e2, e1', hc1e], by rw [e2, e1', hc1e],
          by rw [e2, e1', hc1e], fun x => (hkeyd x).trans (hkey x), fun i x hi => ?_, fun x i hi => ?_, fun i hi => ?_,
          by rw [hkeyd]; exact hks, by rw [hdss]; exact hsz, fun hz => ?_, ?_⟩
        · rw [hdki]; exact hki i x hi
        · rw [hkeyd] at hi
          rw [hdki]
          exact hc1.keyIdx x i hi
        · rw [hdki] at hi
          rw [hdnk]
          exact hc1.keyLe i hi
        · have hz1 := hsd hz
          have hkk : d.keyMap.keys = c1.keyMap.keys := hkk2.trans hkk1
          refine ⟨?_, ?_⟩
          · show d.keyMap.keys.Nodup
            rw [hkk]; exact hz1.wf
          · show d.stateSize = ((d.keyMap.keys.map List.length).sum : Nat)
            rw [hdss, hkk]
            exact hz1.size
        · rw [hdss, ← hst]
          omega

theorem Inserted.entries {c d : Codec} {k v : Str} (h : Inserted c k v d) : d.entries = c.entries := by
  simp only [Codec.entries, h.statics, h.lru]

/-- The state with the new entry. -/
theorem Inserted.core {c d : Codec} {k v : Str} (h : Core c) (hi : Inserted c k v d) (hnew : (k, v) ∉ c.entries.map VE.kv) {g : Option Nat}
    {c' : Codec} (he : c'.entries.Perm (⟨c.nextLru + 1, k, v, g⟩ :: c.entries)) (h1 : c'.nextLru = c.nextLru + 1) (h2 : c'.keyMap = d.keyMap)
    (h3 : c'.keyIdx = d.keyIdx) (h4 : c'.nextKey = d.nextKey) (h5 : c'.numVals = d.numVals) : Core c' := by
  have hk : ∀ x, keyOf c' x = keyOf d x := fun x => by unfold keyOf; rw [h2]
  refine ⟨?_, ?_, ?_, ?_, ?_, ?_, ?_⟩
  · rw [(he.map _).nodup_iff, List.map_cons, List.nodup_cons]
    refine ⟨fun hm => ?_, h.idx⟩
    obtain ⟨e, he, hx⟩ := List.mem_map.1 hm
    have := h.idxLe e he
    simp only at hx
    omega
  · intro e hm
    rw [h1]
    rcases List.mem_cons.1 (he.mem_iff.1 hm) with rfl | hm
    · exact le_rfl
    · have := h.idxLe e hm; omega
  · rw [(he.map _).nodup_iff, List.map_cons, List.nodup_cons]
    exact ⟨hnew, h.kv⟩
  · intro e hm
    rw [hk]
    rcases List.mem_cons.1 (he.mem_iff.1 hm) with rfl | hm
    · exact hi.has
    · rw [hi.key]
      split
      · rfl
      · exact h.keys e hm
  · intro x i hx
    rw [hk] at hx
    rw [h3]
    exact hi.keyIdx x i hx
  · rw [h3, h4]; exact hi.keyLe
  · rw [h5, hi.num, h.num, he.length_eq]
    simp

/-- Storing a value while there is room for it. -/
theorem storeEntry_spec {c : Codec} (h : Core c) {g : Nat} (hg : c.generation = some g) (hcap : c.numVals + 1 ≤ maxVals)
    (k v : Str) :
    (storeEntry c k v = .error .standard ∧ (k, v) ∈ c.entries.map VE.kv) ∨
    (storeEntry c k v = .error .name ∧ (k, v) ∉ c.entries.map VE.kv ∧
      maxStateSize < c.stateSize + (if (keyOf c k).isSome then 0 else k.length : Nat) + v.length) ∨
    ∃ c', storeEntry c k v = .ok c' ∧ (k, v) ∉ c.entries.map VE.kv ∧ Stored c g k v c' := by
  unfold storeEntry
  rcases insertVal_spec h hcap k v with ⟨e1, e2⟩ | ⟨e1, e2⟩ | ⟨d, e1, hnew, hi⟩
  · left; exact ⟨by simp only [e1, bind, Except.bind], e2⟩
  · right; left; exact ⟨by simp only [e1, bind, Except.bind], e2⟩
  · right; right
    have hgen : d.generation = some g := hi.gen.trans hg
    refine ⟨{ d with nextLru := d.nextLru + 1, lru := d.lru ++ [some ⟨d.nextLru + 1, k, v, some g⟩] },
      by simp only [e1, bind, Except.bind, hgen, pure, Except.pure], hnew, ?_⟩
    refine ⟨hi.statics, by simp only [hi.lru, hi.next], by simp only [hi.next], hi.num, hgen, hi.key, hi.keep, ?_, hi.size,
      fun hz => ⟨(hi.sized hz).wf, (hi.sized hz).size⟩, hi.fits⟩
    refine hi.core h hnew ?_ (by simp only [hi.next]) rfl rfl rfl rfl (g := some g)
    have he := entries_append d ⟨d.nextLru + 1, k, v, some g⟩
      { d with nextLru := d.nextLru + 1, lru := d.lru ++ [some ⟨d.nextLru + 1, k, v, some g⟩] } rfl rfl
    rw [he, hi.entries, hi.next]
    exact List.perm_append_singleton _ _

/-- The entries for new headers. -/
def mkEntries (g : Nat) : Nat → List Hdr → List VE
  | _, [] => []
  | n, kv :: kvs => ⟨n + 1, kv.1, kv.2, some g⟩ :: mkEntries g (n + 1) kvs

/-- Storing all values. -/
def storeAll : List Hdr → Codec → Py Codec
  | [], c => .ok c
  | kv :: kvs, c => do
    let c ← storeEntry c kv.1 kv.2
    storeAll kvs c

/-- What storing some values does. -/
structure StoredAll (c : Codec) (g : Nat) (kvs : List Hdr) (c' : Codec) : Prop where
  statics : c'.statics = c.statics
  lru : c'.lru = c.lru ++ (mkEntries g c.nextLru kvs).map some
  next : c'.nextLru = c.nextLru + kvs.length
  num : c'.numVals = c.numVals + kvs.length
  gen : c'.generation = some g
  key : ∀ x, (keyOf c' x).isSome ↔ (keyOf c x).isSome ∨ x ∈ kvs.map (·.1)
  keep : ∀ x i, keyOf c x = some i → keyOf c' x = some i
  keyIdx : ∀ i x, c.keyIdx.get? i = some x → c'.keyIdx.get? i = some x
  core : Core c'
  size : c.stateSize ≤ c'.stateSize
  sized : Sized c → Sized c'
  fits : ∀ kv ∈ kvs, c.stateSize + kv.2.length ≤ maxStateSize
  bound : kvs ≠ [] → c'.stateSize ≤ maxStateSize

theorem mkEntries_kv (g : Nat) (kvs : List Hdr) : ∀ n, (mkEntries g n kvs).map VE.kv = kvs := by
  induction kvs with
  | nil => intro n; rfl
  | cons kv kvs ih => intro n; simp [mkEntries, VE.kv, ih]

theorem mkEntries_gen (g : Nat) (kvs : List Hdr) : ∀ n, ∀ e ∈ mkEntries g n kvs, e.gen = some g := by
  induction kvs with
  | nil => intro n e he; cases he
  | cons kv kvs ih =>
    intro n e he
    rcases List.mem_cons.1 he with rfl | he
    · rfl
    · exact ih _ e he

theorem StoredAll.entries {c : Codec} {g : Nat} {kvs : List Hdr} {c' : Codec} (h : StoredAll c g kvs c') :
    c'.entries = c.entries ++ mkEntries g c.nextLru kvs := by
  simp only [Codec.entries, h.statics, h.lru, List.filterMap_append, List.append_assoc]
  congr 2
  induction mkEntries g c.nextLru kvs with
  | nil => rfl
  | cons e l ih => simp [ih]

/-- With room for all, nothing but a name or value that is too long, or a repetition, can be in the way. -/
theorem storeAll_spec {g : Nat} (kvs : List Hdr) : ∀ {c : Codec} (_ : Core c) (_ : c.generation = some g)
    (_ : c.numVals + kvs.length ≤ maxVals) (_ : kvs.Nodup) (_ : ∀ kv ∈ kvs, kv ∉ c.entries.map VE.kv),
    (storeAll kvs c = .error .name ∧ ∃ names, names ≠ [] ∧ names.Sublist (kvs.map (·.1)) ∧ ∃ kv ∈ kvs,
      maxStateSize < c.stateSize + ((names.filter fun x => (keyOf c x).isNone).dedup.map List.length).sum + kv.2.length) ∨
    ∃ c', storeAll kvs c = .ok c' ∧ StoredAll c g kvs c' := by
  induction kvs with
  | nil =>
    intro c h hg _ _ _
    right
    exact ⟨c, rfl, ⟨rfl, by simp [mkEntries], by simp, by simp, hg, fun x => by simp, fun _ _ h => h, fun _ _ h => h, h, le_rfl, fun h => h,
      by simp, by simp⟩⟩
  | cons kv kvs ih =>
    intro c h hg hcap hn hnew
    obtain ⟨k, v⟩ := kv
    simp only [List.length_cons] at hcap
    push_cast at hcap
    rcases storeEntry_spec h hg (by omega) k v with ⟨-, e2⟩ | ⟨e1, -, e3⟩ | ⟨c1, e1, -, hs⟩
    · exact absurd e2 (hnew (k, v) (by simp))
    · left
      refine ⟨by simp only [storeAll, bind, Except.bind, e1], [k], by simp, by simp, (k, v), by simp, ?_⟩
      refine lt_of_lt_of_le e3 ?_
      have h1 : [k].dedup = [k] := (List.nodup_singleton k).dedup
      cases hk : keyOf c k with
      | none => rw [List.filter_cons_of_pos (by rw [hk]; rfl), List.filter_nil, h1]; simp
      | some i => simp
    · rw [List.nodup_cons] at hn
      have hent := entries_append c _ c1 hs.statics hs.lru
      have hnew' : ∀ x ∈ kvs, x ∉ c1.entries.map VE.kv := by
        intro x hx hm
        rw [hent, List.map_append, List.mem_append] at hm
        rcases hm with hm | hm
        · exact hnew x (by simp [hx]) hm
        · simp [VE.kv] at hm
          subst hm
          exact hn.1 hx
      have hnum := hs.num
      rcases ih hs.core hs.gen (by omega) hn.2 hnew' with ⟨e2, names, hne, hsub, kv, hkv, hlt⟩ | ⟨c2, e2, hs2⟩
      · left
        refine ⟨by simp only [storeAll, bind, Except.bind, e1, e2], k :: names, by simp, ?_, kv, by simp [hkv], ?_⟩
        · simpa using hsub.cons_cons k
        · refine lt_of_lt_of_le hlt ?_
          rw [hs.size]
          have hle : (if (keyOf c k).isSome then 0 else k.length) + ((names.filter fun x => (keyOf c1 x).isNone).dedup.map List.length).sum ≤
              (((k :: names).filter fun x => (keyOf c x).isNone).dedup.map List.length).sum := by
            cases hk : keyOf c k with
            | some i =>
              have : (names.filter fun x => (keyOf c1 x).isNone) = (k :: names).filter fun x => (keyOf c x).isNone := by
                rw [List.filter_cons_of_neg (by rw [hk]; simp)]
                refine List.filter_congr fun x _ => ?_
                rw [hs.key, hk]; simp
              rw [this]
              simp
            | none =>
              have : (names.filter fun x => (keyOf c1 x).isNone) = (names.filter fun x => (keyOf c x).isNone).filter (· ≠ k) := by
                rw [List.filter_filter]
                refine List.filter_congr fun x _ => ?_
                rw [hs.key, hk]
                by_cases hx : x = k <;> simp [hx]
              rw [this, List.filter_cons_of_pos (by rw [hk]; rfl)]
              simp only [Option.isSome_none, Bool.false_eq_true, if_false]
              have hperm : (k :: ((names.filter fun x => (keyOf c x).isNone).filter (· ≠ k)).dedup).Perm
                  (k :: names.filter fun x => (keyOf c x).isNone).dedup := by
                rw [List.perm_ext_iff_of_nodup]
                · intro x
                  simp only [List.mem_cons, List.mem_dedup, List.mem_filter, decide_eq_true_eq]
                  by_cases hx : x = k <;> simp [hx]
                · rw [List.nodup_cons]
                  exact ⟨fun hm => by simpa using List.of_mem_filter (List.mem_dedup.1 hm), List.nodup_dedup _⟩
                · exact List.nodup_dedup _
              rw [← (hperm.map List.length).sum_eq]
              simp
          omega
      · right
        refine ⟨c2, by simp only [storeAll, bind, Except.bind, e1, e2], ?_⟩
        refine ⟨hs2.statics.trans hs.statics, ?_, ?_, ?_, hs2.gen, ?_, ?_, ?_, hs2.core, ?_, fun hz => hs2.sized (hs.sized hz), ?_, ?_⟩
        · rw [hs2.lru, hs.lru, hs.next]; simp [mkEntries]
        · rw [hs2.next, hs.next]; simp; omega
        · rw [hs2.num, hs.num]; simp; omega
        · intro x
          rw [hs2.key, hs.key]
          simp only [List.map_cons, List.mem_cons]
          by_cases hx : x = k
          · subst hx
            cases hk : keyOf c x <;> simp
          · simp [hx]
        · intro x i hi
          refine hs2.keep x i ?_
          rw [hs.key, if_neg]
          · exact hi
          · rintro ⟨rfl, h0⟩
            rw [h0] at hi
            cases hi
        · exact fun i x hi => hs2.keyIdx i x (hs.keyIdx i x hi)
        · have h1 := hs2.size
          have h2 := hs.size
          omega
        · intro kv hkv
          have h2 := hs.size
          have h3 := hs.fits
          rcases List.mem_cons.1 hkv with rfl | hkv
          · simp only; omega
          · have := hs2.fits kv hkv; omega
        · intro _
          by_cases hkvs : kvs = []
          · subst hkvs
            cases e2
            have := hs.fits
            omega
          · exact hs2.bound hkvs

end Verif.DeltaBohe
