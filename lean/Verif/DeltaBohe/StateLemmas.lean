import Verif.DeltaBohe.Model
import Verif.PyLemmas
import Verif.Huff.TreeLemmas
import Mathlib.Data.List.Nodup
import Mathlib.Data.List.Perm.Basic
/-
What the steps of delta_bohe's MakeOperations do to the entries.
-/
namespace Verif.DeltaBohe
open Verif Verif.Bits Verif.Huff Verif.Bohe

/-- Changing all entries. -/
def mapE (f : VE → VE) (c : Codec) : Codec :=
  { c with statics := c.statics.map f, lru := c.lru.map (Option.map f) }

theorem filterMap_map (f : VE → VE) (l : List (Option VE)) :
    (l.map (Option.map f)).filterMap id = (l.filterMap id).map f := by
  induction l with
  | nil => rfl
  | cons x l ih =>
    cases x with
    | none => exact ih
    | some e => exact congrArg (f e :: ·) ih

theorem entries_mapE (f : VE → VE) (c : Codec) : (mapE f c).entries = c.entries.map f := by
  simp only [mapE, Codec.entries, filterMap_map, List.map_append]

theorem update_mapE (c : Codec) (i : Nat) (f : VE → VE) :
    c.update i f = mapE (fun e => if e.idx = i then f e else e) c := rfl

theorem mapE_mapE (f g : VE → VE) (c : Codec) : mapE f (mapE g c) = mapE (f ∘ g) c := by
  simp [mapE]

theorem mapE_id (c : Codec) : mapE (fun e => e) c = c := by
  have h1 : (Option.map fun e : VE => e) = id := by funext x; cases x <;> rfl
  simp [mapE, h1]

theorem mapE_congr {f g : VE → VE} {c : Codec} (h : ∀ e ∈ c.entries, f e = g e) : mapE f c = mapE g c := by
  have h1 : c.statics.map f = c.statics.map g := List.map_congr_left fun e he => h e (by simp [Codec.entries, he])
  have h2 : c.lru.map (Option.map f) = c.lru.map (Option.map g) := by
    refine List.map_congr_left fun x hx => ?_
    cases x with
    | none => rfl
    | some e => simp only [Option.map_some]; rw [h e (by simp [Codec.entries, hx])]
  simp only [mapE, h1, h2]

/-! ### Invariants -/

/-- The index of a key. -/
def keyOf (c : Codec) (k : Str) : Option Nat := (c.keyMap.get? k).map (·.idx)

/-- What an entry says. -/
def VE.kv (e : VE) : Hdr := (e.key, e.val)

/-- Entries and keys are consistent. -/
structure Core (c : Codec) : Prop where
  idx : (c.entries.map (·.idx)).Nodup
  idxLe : ∀ e ∈ c.entries, e.idx ≤ c.nextLru
  kv : (c.entries.map VE.kv).Nodup
  keys : ∀ e ∈ c.entries, (keyOf c e.key).isSome
  keyIdx : ∀ k i, keyOf c k = some i → c.keyIdx.get? i = some k
  keyLe : ∀ i ∈ c.keyIdx.keys, i ≤ c.nextKey
  num : c.numVals = c.entries.length

/-- Between two messages: no pin, and no entry has the current generation. -/
structure Inv (c : Codec) : Prop where
  core : Core c
  nopin : none ∉ c.lru
  gens : ∀ e ∈ c.entries, ∀ n, e.gen = some n → ∃ g, c.generation = some g ∧ n < g

theorem Core.idx_inj {c : Codec} (h : Core c) {a b : VE} (ha : a ∈ c.entries) (hb : b ∈ c.entries) (e : a.idx = b.idx) : a = b :=
  List.inj_on_of_nodup_map h.idx ha hb e

theorem Core.kv_inj {c : Codec} (h : Core c) {a b : VE} (ha : a ∈ c.entries) (hb : b ∈ c.entries) (e : a.kv = b.kv) : a = b :=
  List.inj_on_of_nodup_map h.kv ha hb e

/-- A change of entries that leaves index, key and value alone. -/
theorem Core.mapE {c : Codec} (h : Core c) {f : VE → VE} (hi : ∀ e, (f e).idx = e.idx) (hk : ∀ e, (f e).kv = e.kv) :
    Core (mapE f c) := by
  have hk' : ∀ e, (f e).key = e.key := fun e => congrArg Prod.fst (hk e)
  refine ⟨?_, ?_, ?_, ?_, h.keyIdx, h.keyLe, ?_⟩
  · rw [entries_mapE, List.map_map]
    have : ((·.idx) ∘ f) = (·.idx) := funext hi
    rw [this]; exact h.idx
  · intro e he
    rw [entries_mapE] at he
    obtain ⟨x, hx, rfl⟩ := List.mem_map.1 he
    rw [hi]; exact h.idxLe x hx
  · rw [entries_mapE, List.map_map]
    have : (VE.kv ∘ f) = VE.kv := funext hk
    rw [this]; exact h.kv
  · intro e he
    rw [entries_mapE] at he
    obtain ⟨x, hx, rfl⟩ := List.mem_map.1 he
    rw [hk']; exact h.keys x hx
  · rw [entries_mapE, List.length_map]; exact h.num

theorem findVal_some {c : Codec} {k v : Str} {e : VE} (h : findVal c k v = some e) : e ∈ c.entries ∧ e.kv = (k, v) := by
  refine ⟨List.mem_of_find?_eq_some h, ?_⟩
  have := List.find?_some h
  simp only [decide_eq_true_eq] at this
  simp [VE.kv, this]

theorem findVal_none {c : Codec} {k v : Str} : findVal c k v = none ↔ (k, v) ∉ c.entries.map VE.kv := by
  rw [findVal, List.find?_eq_none]
  simp only [List.mem_map, VE.kv, Prod.mk.injEq, decide_eq_true_eq, not_exists, not_and]

theorem findVal_of_mem {c : Codec} (h : Core c) {e : VE} (he : e ∈ c.entries) : findVal c e.key e.val = some e := by
  cases hf : findVal c e.key e.val with
  | none => exact absurd (List.mem_map.2 ⟨e, he, rfl⟩) (findVal_none.1 hf)
  | some x =>
    obtain ⟨hx, hkv⟩ := findVal_some hf
    rw [h.kv_inj hx he hkv]

theorem findVal_mapE {c : Codec} {f : VE → VE} (hk : ∀ e, (f e).kv = e.kv) (k v : Str) :
    findVal (mapE f c) k v = (findVal c k v).map f := by
  unfold findVal
  rw [entries_mapE, List.find?_map]
  congr 1
  congr 1
  funext e
  have := hk e
  simp only [VE.kv, Prod.mk.injEq] at this
  simp [Function.comp, this.1, this.2]

/-! ### Reference counters -/

theorem refCnt_eq (c : Codec) (k : Str) (n : Int) : ∃ km, refCnt c k n = { c with keyMap := km } ∧
    (∀ x, (Dict.get? km x).map (·.idx) = keyOf c x) ∧ Dict.keys km = c.keyMap.keys := by
  unfold refCnt
  cases h : c.keyMap.get? k with
  | none => exact ⟨c.keyMap, rfl, fun x => rfl, rfl⟩
  | some ke =>
    refine ⟨_, rfl, fun x => ?_, ?_⟩
    · rw [Dict.get?_set]
      unfold keyOf
      split
      · next e => subst e; rw [h]; rfl
      · rfl
    · rw [Dict.keys_set, if_pos]
      exact Dict.mem_keys_of_mem (Dict.get?_mem h)

/-- States that differ in the reference counters only. -/
structure SameBut (c d : Codec) : Prop where
  eq : ∃ km, d = { c with keyMap := km }
  key : ∀ x, keyOf d x = keyOf c x
  keys : d.keyMap.keys = c.keyMap.keys

theorem SameBut.refl (c : Codec) : SameBut c c := ⟨⟨c.keyMap, rfl⟩, fun _ => rfl, rfl⟩

theorem SameBut.trans {a b c : Codec} (h : SameBut a b) (h' : SameBut b c) : SameBut a c := by
  obtain ⟨⟨km, rfl⟩, h2, h3⟩ := h
  obtain ⟨⟨km', rfl⟩, h2', h3'⟩ := h'
  exact ⟨⟨km', rfl⟩, fun x => (h2' x).trans (h2 x), h3'.trans h3⟩

theorem refCnt_same (c : Codec) (k : Str) (n : Int) : SameBut c (refCnt c k n) := by
  obtain ⟨km, e, h, h'⟩ := refCnt_eq c k n
  exact ⟨⟨km, e⟩, fun x => by rw [e]; exact h x, by rw [e]; exact h'⟩

theorem refCnts_same (n : Int) (ks : List Str) : ∀ c : Codec, SameBut c (ks.foldl (fun c k => refCnt c k n) c) := by
  induction ks with
  | nil => exact SameBut.refl
  | cons k ks ih => exact fun c => (refCnt_same c k n).trans (ih _)

theorem SameBut.entries {c d : Codec} (h : SameBut c d) : d.entries = c.entries := by
  obtain ⟨⟨km, rfl⟩, -⟩ := h
  rfl

theorem SameBut.core {c d : Codec} (h : SameBut c d) (hc : Core c) : Core d := by
  have hk := h.key
  obtain ⟨⟨km, rfl⟩, -⟩ := h
  exact ⟨hc.idx, hc.idxLe, hc.kv, fun e he => by rw [hk]; exact hc.keys e he, fun k i hi => by rw [hk] at hi; exact hc.keyIdx k i hi,
    hc.keyLe, hc.num⟩

theorem has_key (c : Codec) (k : Str) : c.keyMap.has k = (keyOf c k).isSome := by
  simp [Dict.has, keyOf]

theorem get_key_none (c : Codec) (k : Str) : c.keyMap.get? k = none ↔ keyOf c k = none := by
  simp [keyOf]

/-! ### Headers to instructions -/

/-- A header of the message that is in the header group becomes current. -/
def touch (g : Nat) (hs : List Hdr) (e : VE) : VE := if e.kv ∈ hs ∧ e.gen.isSome then { e with gen := some g } else e

theorem touch_idx (g : Nat) (hs : List Hdr) (e : VE) : (touch g hs e).idx = e.idx := by unfold touch; split <;> rfl
theorem touch_kv (g : Nat) (hs : List Hdr) (e : VE) : (touch g hs e).kv = e.kv := by unfold touch; split <;> rfl
theorem touch_isSome (g : Nat) (hs : List Hdr) (e : VE) : (touch g hs e).gen.isSome = e.gen.isSome := by
  unfold touch; split
  · next h => simp [h.2]
  · rfl

/-- The index of a stored header that is not in the header group. -/
def toggleOf (c : Codec) (kv : Hdr) : Option Nat :=
  (findVal c kv.1 kv.2).bind fun e => if e.gen.isNone then some e.idx else none

/-- The clone for a header that is not stored but its key is. -/
def cloneOf (c : Codec) (kv : Hdr) : Option (Nat × Str × Bool) :=
  match findVal c kv.1 kv.2 with
  | some _ => none
  | none => (keyOf c kv.1).map fun i => (i, kv.2, decide (kv.1 ∉ encoderNames))

/-- The operation for a header whose key is not stored. -/
def kvstoOf (c : Codec) (kv : Hdr) : Option (Str × Str × Bool) :=
  if (keyOf c kv.1).isNone then some (kv.1, kv.2, decide (kv.1 ∉ encoderNames)) else none

/-- ProcessKV for all headers. -/
def processAll : List Hdr → Codec → Instrs → Py (Codec × Instrs)
  | [], c, g => .ok (c, g)
  | kv :: kvs, c, g => do
    let (c, g) ← processKV kv.1 kv.2 c g
    processAll kvs c g

theorem processKV_spec {c : Codec} (h : Core c) {g : Nat} (hg : c.generation = some g) (kv : Hdr) (x : Instrs) :
    processKV kv.1 kv.2 c x = .ok (mapE (touch g [kv]) c,
      { toggl := x.toggl ++ (toggleOf c kv).toList, clone := x.clone ++ (cloneOf c kv).toList,
        kvsto := x.kvsto ++ (kvstoOf c kv).toList }) := by
  obtain ⟨k, v⟩ := kv
  have hno : findVal c k v = none → mapE (touch g [(k, v)]) c = c := by
    intro hf
    conv_rhs => rw [← mapE_id c]
    refine mapE_congr fun e he => ?_
    unfold touch
    rw [if_neg]
    rintro ⟨h1, -⟩
    exact findVal_none.1 hf (List.mem_map.2 ⟨e, he, List.mem_singleton.1 h1⟩)
  unfold processKV
  cases hk : c.keyMap.get? k with
  | none =>
    have hk' := (get_key_none c k).1 hk
    have hf : findVal c k v = none := by
      cases hf : findVal c k v with
      | none => rfl
      | some e =>
        obtain ⟨he, hkv⟩ := findVal_some hf
        have := h.keys e he
        have he1 : e.key = k := congrArg Prod.fst hkv
        rw [he1, hk'] at this
        cases this
    simp [toggleOf, cloneOf, kvstoOf, hf, hk', hno hf]
  | some ke =>
    have hk' : keyOf c k = some ke.idx := by simp [keyOf, hk]
    cases hf : findVal c k v with
    | none => simp [toggleOf, cloneOf, kvstoOf, hf, hk', hno hf]
    | some e =>
      obtain ⟨he, hkv⟩ := findVal_some hf
      simp only [hg, toggleOf, cloneOf, kvstoOf, hf, hk', Option.bind_some]
      cases hgen : e.gen with
      | none =>
        have hE : mapE (touch g [(k, v)]) c = c := by
          conv_rhs => rw [← mapE_id c]
          refine mapE_congr fun x hx => ?_
          unfold touch
          rw [if_neg]
          rintro ⟨h1, h2⟩
          have : x = e := h.kv_inj hx he ((List.mem_singleton.1 h1).trans hkv.symm)
          rw [this, hgen] at h2
          cases h2
        simp [hE]
      | some n =>
        have hE : mapE (touch g [(k, v)]) c = c.update e.idx fun e => { e with gen := some g } := by
          rw [update_mapE]
          refine mapE_congr fun x hx => ?_
          unfold touch
          by_cases hx1 : x.idx = e.idx
          · have := h.idx_inj hx he hx1
            subst this
            rw [if_pos ⟨by simp [hkv], by simp [hgen]⟩, if_pos rfl]
          · rw [if_neg hx1, if_neg]
            rintro ⟨h1, h2⟩
            exact hx1 (congrArg VE.idx (h.kv_inj hx he ((List.mem_singleton.1 h1).trans hkv.symm)))
        simp [hE]

theorem mapE_touch_of {c : Codec} (f : VE → VE) (hi : ∀ e, (f e).idx = e.idx) (hk : ∀ e, (f e).kv = e.kv)
    (hs : ∀ e, (f e).gen.isSome = e.gen.isSome) (kv : Hdr) : toggleOf (mapE f c) kv = toggleOf c kv ∧
    cloneOf (mapE f c) kv = cloneOf c kv ∧ kvstoOf (mapE f c) kv = kvstoOf c kv := by
  have hkey : ∀ k, keyOf (mapE f c) k = keyOf c k := fun _ => rfl
  refine ⟨?_, ?_, rfl⟩
  · unfold toggleOf
    rw [findVal_mapE hk]
    cases findVal c kv.1 kv.2 with
    | none => rfl
    | some e =>
      have := hs e
      simp only [Option.map_some, Option.bind_some, hi]
      cases h1 : e.gen <;> cases h2 : (f e).gen <;> simp_all
  · unfold cloneOf
    rw [findVal_mapE hk]
    cases findVal c kv.1 kv.2 <;> simp [hkey]

theorem processAll_spec {g : Nat} (hs : List Hdr) : ∀ {c : Codec} (_ : Core c) (_ : c.generation = some g) (x : Instrs),
    processAll hs c x = .ok (mapE (touch g hs) c,
      { toggl := x.toggl ++ hs.filterMap (toggleOf c), clone := x.clone ++ hs.filterMap (cloneOf c),
        kvsto := x.kvsto ++ hs.filterMap (kvstoOf c) }) := by
  induction hs with
  | nil =>
    intro c h hg x
    have : mapE (touch g []) c = c := by
      conv_rhs => rw [← mapE_id c]
      exact mapE_congr fun e he => by simp [touch]
    simp [processAll, this]
  | cons kv hs ih =>
    intro c h hg x
    simp only [processAll, bind, Except.bind, processKV_spec h hg kv x]
    rw [ih (h.mapE (touch_idx g _) (touch_kv g _)) hg]
    have ht := fun y => mapE_touch_of (c := c) (touch g [kv]) (touch_idx g _) (touch_kv g _) (touch_isSome g _) y
    have h1 : toggleOf (mapE (touch g [kv]) c) = toggleOf c := funext fun y => (ht y).1
    have h2 : cloneOf (mapE (touch g [kv]) c) = cloneOf c := funext fun y => (ht y).2.1
    have h3 : kvstoOf (mapE (touch g [kv]) c) = kvstoOf c := funext fun y => (ht y).2.2
    have h4 : mapE (touch g hs) (mapE (touch g [kv]) c) = mapE (touch g (kv :: hs)) c := by
      rw [mapE_mapE]
      refine mapE_congr fun e he => ?_
      simp only [Function.comp]
      unfold touch
      by_cases ha : e.gen.isSome = true <;> by_cases hb : e.kv = kv <;> by_cases hd : e.kv ∈ hs <;>
        simp_all [VE.kv]
    rw [h1, h2, h3, h4]
    have hfm : ∀ {β : Type} (f : Hdr → Option β), (kv :: hs).filterMap f = (f kv).toList ++ hs.filterMap f := by
      intro β f
      cases hf : f kv <;> simp [hf]
    simp [hfm]

end Verif.DeltaBohe
