import Verif.DeltaBohe.MessageLemmas
import Verif.Delta1.CodecLemmas
import Verif.Huff.Exact
/-
delta_bohe: a receiver that is given the operations does what the sender did.
-/
namespace Verif.DeltaBohe
open Verif Verif.Bits Verif.Huff Verif.Bohe

/-- What both sides agree on about an entry. -/
def VE.shape (e : VE) : Nat × Str × Str × Bool := (e.idx, e.key, e.val, e.gen.isSome)

/-- The states agree; the sender's counters are higher by `off` at least, and the receiver counts not more bytes. -/
structure Sim (off : Str → Nat) (c d : Codec) : Prop where
  statics : d.statics.map VE.shape = c.statics.map VE.shape
  lru : d.lru.map (Option.map VE.shape) = c.lru.map (Option.map VE.shape)
  key : ∀ x, keyOf d x = keyOf c x
  keyIdx : d.keyIdx = c.keyIdx
  nextKey : d.nextKey = c.nextKey
  nextLru : d.nextLru = c.nextLru
  num : d.numVals = c.numVals
  size : d.stateSize ≤ c.stateSize
  ref : ∀ x kc kd, c.keyMap.get? x = some kc → d.keyMap.get? x = some kd → kd.refCnt + off x ≤ kc.refCnt
  known : ∀ x, 0 < off x → (keyOf c x).isSome
  gen : d.generation.isSome = c.generation.isSome

theorem shape_filterMap (l m : List (Option VE)) (h : l.map (Option.map VE.shape) = m.map (Option.map VE.shape)) :
    (l.filterMap id).map VE.shape = (m.filterMap id).map VE.shape := by
  have key : ∀ l : List (Option VE), (l.filterMap id).map VE.shape = (l.map (Option.map VE.shape)).filterMap id := by
    intro l
    induction l with
    | nil => rfl
    | cons x l ih =>
      cases x with
      | none => exact ih
      | some e => exact congrArg (e.shape :: ·) ih
  rw [key, key, h]

theorem Sim.entries {off : Str → Nat} {c d : Codec} (h : Sim off c d) : d.entries.map VE.shape = c.entries.map VE.shape := by
  simp only [Codec.entries, List.map_append, h.statics, shape_filterMap _ _ h.lru]

/-- Anything computed from the shapes is the same. -/
theorem shapes_map {α : Type} {l m : List VE} (h : l.map VE.shape = m.map VE.shape) (f : VE → α) (f' : Nat × Str × Str × Bool → α)
    (hf : ∀ e, f e = f' e.shape) : l.map f = m.map f := by
  have : f = f' ∘ VE.shape := funext hf
  rw [this, ← List.map_map, ← List.map_map, h]

theorem shapes_any {l m : List VE} (h : l.map VE.shape = m.map VE.shape) (f : VE → Bool) (f' : Nat × Str × Str × Bool → Bool)
    (hf : ∀ e, f e = f' e.shape) : l.any f = m.any f := by
  have : f = f' ∘ VE.shape := funext hf
  rw [this, ← List.any_map, ← List.any_map, h]

theorem Sim.core {off : Str → Nat} {c d : Codec} (h : Sim off c d) (hc : Core c) : Core d := by
  have he := h.entries
  have h1 : d.entries.map (·.idx) = c.entries.map (·.idx) := shapes_map he _ (·.1) fun _ => rfl
  have h2 : d.entries.map VE.kv = c.entries.map VE.kv := shapes_map he _ (fun s => (s.2.1, s.2.2.1)) fun _ => rfl
  have h3 : d.entries.map (·.key) = c.entries.map (·.key) := shapes_map he _ (fun s => s.2.1) fun _ => rfl
  refine ⟨by rw [h1]; exact hc.idx, ?_, by rw [h2]; exact hc.kv, ?_, ?_, ?_, ?_⟩
  · intro e hm
    rw [h.nextLru]
    have : e.idx ∈ c.entries.map (·.idx) := by rw [← h1]; exact List.mem_map.2 ⟨e, hm, rfl⟩
    obtain ⟨x, hx, hxe⟩ := List.mem_map.1 this
    rw [← hxe]; exact hc.idxLe x hx
  · intro e hm
    rw [h.key]
    have : e.key ∈ c.entries.map (·.key) := by rw [← h3]; exact List.mem_map.2 ⟨e, hm, rfl⟩
    obtain ⟨x, hx, hxe⟩ := List.mem_map.1 this
    rw [← hxe]; exact hc.keys x hx
  · intro k i hi
    rw [h.key] at hi
    rw [h.keyIdx]; exact hc.keyIdx k i hi
  · rw [h.keyIdx, h.nextKey]; exact hc.keyLe
  · rw [h.num, hc.num]
    have := congrArg List.length he
    simp only [List.length_map] at this
    rw [this]

/-! ### Storing -/

theorem Sim.find {off : Str → Nat} {c d : Codec} (h : Sim off c d) (k v : Str) : (findVal d k v).isSome = (findVal c k v).isSome := by
  unfold findVal
  have key : ∀ (l : List VE) (f : VE → Bool), (l.find? f).isSome = l.any f := by
    intro l f
    rw [Bool.eq_iff_iff, List.find?_isSome, List.any_eq_true]
  rw [key, key]
  exact shapes_any h.entries _ (fun s => decide (s.2.1 = k ∧ s.2.2.1 = v)) fun _ => rfl

theorem Sim.empty {off : Str → Nat} {c d : Codec} (h : Sim off c d) : groupEmpty d = groupEmpty c := by
  unfold groupEmpty
  have := shapes_any h.entries (fun e => e.gen.isSome) (fun s => s.2.2.2) fun _ => rfl
  rw [List.all_eq_not_any_not, List.all_eq_not_any_not]
  simpa using this

theorem Sim.needed {off : Str → Nat} {c d : Codec} (h : Sim off c d) (k : Str) (hn : keyNeeded c k = false) : keyNeeded d k = false := by
  unfold keyNeeded at hn ⊢
  rw [Bool.or_eq_false_iff] at hn ⊢
  refine ⟨?_, ?_⟩
  · exact (shapes_any h.entries (fun e => decide (e.key = k)) (fun s => decide (s.2.1 = k)) fun _ => rfl).trans hn.1
  · have hk := h.key k
    unfold keyOf at hk
    have h2 := hn.2
    cases hd : d.keyMap.get? k with
    | none => rfl
    | some kd =>
      cases hc : c.keyMap.get? k with
      | none => rw [hd, hc] at hk; cases hk
      | some kc =>
        have := h.ref k kc kd hc hd
        rw [hc] at h2
        simp only [decide_eq_false_iff_not, not_lt] at h2 ⊢
        omega

theorem Sim.pop {off : Str → Nat} {c d c' : Codec} (h : Sim off c d) (hp : popOne c = .ok c') :
    ∃ d', popOne d = .ok d' ∧ Sim off c' d' := by
  have hl := h.lru
  unfold popOne at hp ⊢
  cases hc : c.lru with
  | nil =>
    rw [hc] at hp hl
    have : d.lru = [] := by simpa using hl
    rw [this]
    cases hp
    exact ⟨d, rfl, h⟩
  | cons x rest =>
    rw [hc] at hp hl
    cases hd : d.lru with
    | nil => rw [hd] at hl; cases hl
    | cons y rest' =>
      rw [hd] at hl
      simp only [List.map_cons, List.cons.injEq] at hl
      obtain ⟨hxy, hrest⟩ := hl
      cases x with
      | none =>
        cases y with
        | none => cases hp; exact ⟨d, rfl, h⟩
        | some e => cases hxy
      | some ve =>
        cases y with
        | none => cases hxy
        | some ve' =>
          simp only [Option.map_some, Option.some.injEq] at hxy
          simp only [VE.shape, Prod.mk.injEq] at hxy
          obtain ⟨s1, s2, s3, s4⟩ := hxy
          simp only at hp ⊢
          have hsim : Sim off { c with lru := some { ve with gen := none } :: rest } { d with lru := some { ve' with gen := none } :: rest' } := by
            refine ⟨h.statics, ?_, h.key, h.keyIdx, h.nextKey, h.nextLru, h.num, h.size, h.ref, h.known, h.gen⟩
            simp only [List.map_cons, Option.map_some, hrest]
            simp [VE.shape, s1, s2, s3]
          have hsim2 : Sim off { c with lru := rest, stateSize := c.stateSize - ve.val.length, numVals := c.numVals - 1 }
              { d with lru := rest', stateSize := d.stateSize - ve'.val.length, numVals := d.numVals - 1 } := by
            refine ⟨h.statics, hrest, h.key, h.keyIdx, h.nextKey, h.nextLru, ?_, ?_, h.ref, h.known, h.gen⟩
            · simp only [h.num]
            · have := h.size
              simp only [s3]
              omega
          rw [hsim.empty, h.gen]
          split at hp
          · cases hp
          · next hne =>
            rw [if_neg hne]
            cases hp
            refine ⟨_, rfl, ?_⟩
            unfold removeVal
            simp only
            rw [s2]
            cases hk : keyNeeded { c with lru := rest, stateSize := c.stateSize - ve.val.length, numVals := c.numVals - 1 } ve.key with
            | false =>
              rw [if_neg (by simp), if_neg (fun h0 => by rw [hsim2.needed _ hk] at h0; cases h0)]
              refine ⟨hsim2.statics, hsim2.lru, h.key, h.keyIdx, h.nextKey, h.nextLru, hsim2.num, ?_, h.ref, h.known, h.gen⟩
              have := hsim2.size
              simp only at this ⊢
              omega
            | true =>
              rw [if_pos rfl]
              split
              · exact hsim2
              · refine ⟨hsim2.statics, hsim2.lru, h.key, h.keyIdx, h.nextKey, h.nextLru, hsim2.num, ?_, h.ref, h.known, h.gen⟩
                have := hsim2.size
                simp only at this ⊢
                omega

theorem Sim.space {off : Str → Nat} {c d c' : Codec} (h : Sim off c d) {n : Nat} {a : Int} (hp : makeSpace c n a = .ok c') :
    ∃ d', makeSpace d n a = .ok d' ∧ Sim off c' d' := by
  unfold makeSpace at hp ⊢
  rw [h.num]
  split at hp
  · next hh => rw [if_pos hh]; exact h.pop hp
  · next hh =>
    rw [if_neg hh]
    split at hp
    · cases hp
    · next hs =>
      have := h.size
      rw [if_neg (by omega)]
      cases hp
      exact ⟨d, rfl, h⟩

theorem Sim.addKey {off : Str → Nat} {c d c' : Codec} (h : Sim off c d) {k : Str} (hp : findOrAddKey c k = .ok c') :
    ∃ d', findOrAddKey d k = .ok d' ∧ Sim off c' d' := by
  unfold findOrAddKey at hp ⊢
  rw [has_key] at hp ⊢
  rw [h.key]
  split at hp
  · next hh => rw [if_pos hh]; cases hp; exact ⟨d, rfl, h⟩
  · next hh =>
    rw [if_neg hh]
    cases e1 : makeSpace c (List.length k) 0 with
    | error e => simp only [e1, bind, Except.bind] at hp; cases hp
    | ok c1 =>
      obtain ⟨d1, e2, h1⟩ := h.space e1
      simp only [e1, bind, Except.bind] at hp
      simp only [e2, bind, Except.bind, h1.keyIdx, h1.nextKey]
      split at hp
      · cases hp
      · next hs =>
        rw [if_neg hs]
        cases hp
        refine ⟨_, rfl, h1.statics, h1.lru, fun x => ?_, rfl, rfl, h1.nextLru, h1.num, ?_, fun x kc kd hc hd => ?_, fun x hx => ?_, h1.gen⟩
        · have := h1.key x
          unfold keyOf at this ⊢
          simp only [Dict.get?_set]
          split
          · rfl
          · exact this
        · have := h1.size
          simp only
          omega
        · simp only [Dict.get?_set] at hc hd
          split at hc
          · next e =>
            rw [if_pos e] at hd
            cases hc; cases hd
            subst e
            have : ¬ 0 < off k := fun h0 => hh (h.known k h0)
            simp only
            omega
          · next e =>
            rw [if_neg e] at hd
            exact h1.ref x kc kd hc hd
        · have := h1.known x hx
          unfold keyOf at this ⊢
          simp only [Dict.get?_set]
          split
          · rfl
          · exact this

theorem refCnt_get (c : Codec) (k : Str) (n : Int) (x : Str) :
    (refCnt c k n).keyMap.get? x = (c.keyMap.get? x).map fun ke => if x = k then { ke with refCnt := ke.refCnt + n } else ke := by
  unfold refCnt
  cases h : c.keyMap.get? k with
  | none =>
    simp only
    by_cases e : x = k
    · subst e; rw [h]; rfl
    · cases c.keyMap.get? x <;> simp [e]
  | some ke =>
    simp only [Dict.get?_set]
    by_cases e : k = x
    · subst e; simp [h]
    · rw [if_neg e]
      cases c.keyMap.get? x <;> simp [Ne.symm e]

theorem refCnt_rest (c : Codec) (k : Str) (n : Int) : (refCnt c k n).statics = c.statics ∧ (refCnt c k n).lru = c.lru ∧
    (refCnt c k n).nextKey = c.nextKey ∧ (refCnt c k n).nextLru = c.nextLru ∧ (refCnt c k n).stateSize = c.stateSize ∧
    (refCnt c k n).numVals = c.numVals ∧ (refCnt c k n).generation = c.generation ∧ (refCnt c k n).keyIdx = c.keyIdx := by
  obtain ⟨⟨km, e⟩, -⟩ := refCnt_same c k n
  rw [e]
  exact ⟨rfl, rfl, rfl, rfl, rfl, rfl, rfl, rfl⟩

/-- Both sides change a counter. -/
theorem Sim.ref2 {off : Str → Nat} {c d : Codec} (h : Sim off c d) (k : Str) (n : Int) : Sim off (refCnt c k n) (refCnt d k n) := by
  obtain ⟨a1, a2, a3, a4, a5, a6, a7, a8⟩ := refCnt_rest c k n
  obtain ⟨b1, b2, b3, b4, b5, b6, b7, b8⟩ := refCnt_rest d k n
  have hc := (refCnt_same c k n).key
  have hd := (refCnt_same d k n).key
  refine ⟨by rw [a1, b1]; exact h.statics, by rw [a2, b2]; exact h.lru, fun x => by rw [hc, hd]; exact h.key x, by rw [a8, b8]; exact h.keyIdx,
    by rw [a3, b3]; exact h.nextKey, by rw [a4, b4]; exact h.nextLru, by rw [a6, b6]; exact h.num, by rw [a5, b5]; exact h.size,
    fun x kc kd ec ed => ?_, fun x hx => by rw [hc]; exact h.known x hx, by rw [a7, b7]; exact h.gen⟩
  rw [refCnt_get, Option.map_eq_some_iff] at ec ed
  obtain ⟨kc', ec, rfl⟩ := ec
  obtain ⟨kd', ed, rfl⟩ := ed
  have := h.ref x kc' kd' ec ed
  split
  · simp only; omega
  · exact this

theorem Sim.store {off : Str → Nat} {c d c' : Codec} (h : Sim off c d) {k v : Str} (hp : storeEntry c k v = .ok c') :
    ∃ d', storeEntry d k v = .ok d' ∧ Sim off c' d' := by
  unfold storeEntry insertVal at hp ⊢
  cases e1 : findOrAddKey c k with
  | error e => simp only [e1, bind, Except.bind] at hp; cases hp
  | ok c1 =>
    obtain ⟨d1, f1, h1⟩ := h.addKey e1
    simp only [e1, bind, Except.bind] at hp
    simp only [f1, bind, Except.bind]
    rw [h1.find]
    by_cases hf : (findVal c1 k v).isSome = true
    · simp only [hf, if_true] at hp; cases hp
    · simp only [hf, Bool.false_eq_true, if_false] at hp ⊢
      cases e2 : makeSpace (refCnt c1 k 1) (List.length v) 1 with
      | error e => simp only [e2] at hp; cases hp
      | ok c2 =>
        obtain ⟨d2, f2, h2⟩ := (h1.ref2 k 1).space e2
        simp only [e2, pure, Except.pure] at hp
        simp only [f2, pure, Except.pure]
        have h3 : Sim off { c2 with numVals := c2.numVals + 1 } { d2 with numVals := d2.numVals + 1 } :=
          ⟨h2.statics, h2.lru, h2.key, h2.keyIdx, h2.nextKey, h2.nextLru, by simp only [h2.num], h2.size, h2.ref, h2.known, h2.gen⟩
        have h4 := h3.ref2 k (-1)
        generalize refCnt { c2 with numVals := c2.numVals + 1 } k (-1) = c3 at *
        generalize refCnt { d2 with numVals := d2.numVals + 1 } k (-1) = d3 at *
        cases hg : c3.generation with
        | none => simp only [hg] at hp; cases hp
        | some g =>
          simp only [hg] at hp
          cases hp
          cases hg' : d3.generation with
          | none => have := h4.gen; rw [hg, hg'] at this; cases this
          | some g' =>
            refine ⟨_, rfl, h4.statics, ?_, h4.key, h4.keyIdx, h4.nextKey, ?_, h4.num, h4.size, h4.ref, h4.known, rfl⟩
            · simp only [List.map_append, h4.lru, h4.nextLru]
              rfl
            · simp only [h4.nextLru]

theorem Sim.clones {off : Str → Nat} (ops : List (Nat × Str × Bool)) : ∀ {c d c' : Codec} (_ : Sim off c d) (_ : cloneAll ops c = .ok c'),
    ∃ d', cloneAll ops d = .ok d' ∧ Sim off c' d' := by
  induction ops with
  | nil => intro c d c' h hp; cases hp; exact ⟨d, rfl, h⟩
  | cons op ops ih =>
    intro c d c' h hp
    obtain ⟨k, v, b⟩ := op
    unfold cloneAll at hp ⊢
    rw [h.keyIdx]
    cases hk : c.keyIdx.get? k with
    | none => rw [hk] at hp; cases hp
    | some key =>
      rw [hk] at hp
      simp only [bind, Except.bind] at hp ⊢
      cases e1 : storeEntry c key v with
      | error e => rw [e1] at hp; cases hp
      | ok c1 =>
        rw [e1] at hp
        obtain ⟨d1, f1, h1⟩ := h.store e1
        rw [f1]
        exact ih h1 hp

theorem Sim.kvstos {off : Str → Nat} (ops : List (Str × Str × Bool)) : ∀ {c d c' : Codec} (_ : Sim off c d) (_ : kvstoAll ops c = .ok c'),
    ∃ d', kvstoAll ops d = .ok d' ∧ Sim off c' d' := by
  induction ops with
  | nil => intro c d c' h hp; cases hp; exact ⟨d, rfl, h⟩
  | cons op ops ih =>
    intro c d c' h hp
    obtain ⟨k, v, b⟩ := op
    unfold kvstoAll at hp ⊢
    simp only [bind, Except.bind] at hp ⊢
    cases e1 : storeEntry c k v with
    | error e => rw [e1] at hp; cases hp
    | ok c1 =>
      rw [e1] at hp
      obtain ⟨d1, f1, h1⟩ := h.store e1
      rw [f1]
      exact ih h1 hp

/-! ### Toggles -/

theorem flips_shape (g n : Nat) : ∀ e : VE, (flips g n e).shape = (e.idx, e.key, e.val, xor e.gen.isSome (n % 2 == 1)) := by
  induction n with
  | zero => intro e; simp [flips, VE.shape]
  | succ n ih =>
    intro e
    rw [flips, ih]
    simp only [flip, Prod.mk.injEq, true_and]
    have h1 : ((n + 1) % 2 == 1) = !(n % 2 == 1) := by
      rcases Nat.mod_two_eq_zero_or_one n with h | h
      · have : (n + 1) % 2 = 1 := by omega
        simp [h, this]
      · have : (n + 1) % 2 = 0 := by omega
        simp [h, this]
    rw [h1]
    cases e.gen <;> cases (n % 2 == 1) <;> rfl

theorem toggleAll_mem {g : Nat} (ts : List Nat) : ∀ {c c' : Codec} (_ : Core c) (_ : c.generation = some g) (_ : toggleAll ts c = .ok c'),
    ∀ i ∈ ts, i ∈ c.entries.map (·.idx) := by
  induction ts with
  | nil => intro c c' _ _ _ i hi; cases hi
  | cons t ts ih =>
    intro c c' hc hg ht i hi
    by_cases hm : t ∈ c.entries.map (·.idx)
    · have e := toggle_spec hc hg hm
      simp only [toggleAll, bind, Except.bind, e] at ht
      rcases List.mem_cons.1 hi with rfl | hi
      · exact hm
      · have hcore : Core (mapE (fun e => if e.idx = t then flip g e else e) c) :=
          hc.mapE (fun e => by split <;> rfl) (fun e => by split <;> rfl)
        have := ih hcore hg ht i hi
        rw [entries_mapE, List.map_map] at this
        have h2 : ((fun x : VE => x.idx) ∘ fun e => if e.idx = t then flip g e else e) = (·.idx) := by
          funext e; simp only [Function.comp]; split <;> rfl
        rwa [h2] at this
    · simp only [toggleAll, bind, Except.bind, toggle_error hm] at ht
      cases ht

theorem flips_idx' (g : Nat) (ts : List Nat) (e : VE) : (flips g (ts.count e.idx) e).idx = e.idx := flips_idx _ _ _
theorem flips_kv' (g : Nat) (ts : List Nat) (e : VE) : (flips g (ts.count e.idx) e).kv = e.kv := flips_kv _ _ _

theorem map_shape_mapE {l m : List VE} (h : l.map VE.shape = m.map VE.shape) (f f' : VE → VE) (s : Nat × Str × Str × Bool → Nat × Str × Str × Bool)
    (hf : ∀ e, (f e).shape = s e.shape) (hf' : ∀ e, (f' e).shape = s e.shape) : (l.map f).map VE.shape = (m.map f').map VE.shape := by
  have h1 : VE.shape ∘ f = s ∘ VE.shape := funext hf
  have h2 : VE.shape ∘ f' = s ∘ VE.shape := funext hf'
  rw [List.map_map, List.map_map, h1, h2, ← List.map_map, ← List.map_map, h]

theorem map_shape_lru {l m : List (Option VE)} (h : l.map (Option.map VE.shape) = m.map (Option.map VE.shape)) (f f' : VE → VE)
    (s : Nat × Str × Str × Bool → Nat × Str × Str × Bool)
    (hf : ∀ e, (f e).shape = s e.shape) (hf' : ∀ e, (f' e).shape = s e.shape) :
    (l.map (Option.map f)).map (Option.map VE.shape) = (m.map (Option.map f')).map (Option.map VE.shape) := by
  have h1 : (Option.map VE.shape ∘ Option.map f) = (Option.map s ∘ Option.map VE.shape) := by
    funext x; cases x <;> simp [hf]
  have h2 : (Option.map VE.shape ∘ Option.map f') = (Option.map s ∘ Option.map VE.shape) := by
    funext x; cases x <;> simp [hf']
  rw [List.map_map, List.map_map, h1, h2, ← List.map_map, ← List.map_map, h]

theorem Sim.mapE {off : Str → Nat} {c d : Codec} (h : Sim off c d) (f f' : VE → VE) (s : Nat × Str × Str × Bool → Nat × Str × Str × Bool)
    (hf : ∀ e, (f e).shape = s e.shape) (hf' : ∀ e, (f' e).shape = s e.shape) : Sim off (mapE f c) (mapE f' d) :=
  ⟨map_shape_mapE h.statics _ _ s hf' hf, map_shape_lru h.lru _ _ s hf' hf, h.key, h.keyIdx, h.nextKey, h.nextLru, h.num, h.size,
    h.ref, h.known, h.gen⟩

/-- Toggling in another order. -/
theorem Sim.toggles {off : Str → Nat} {c d c' : Codec} (h : Sim off c d) (hc : Core c) {ts us : List Nat} (hp : us.Perm ts)
    (ht : toggleAll ts c = .ok c') : ∃ d', toggleAll us d = .ok d' ∧ Sim off c' d' := by
  cases hg : c.generation with
  | none =>
    cases ts with
    | nil =>
      cases ht
      rw [hp.eq_nil]
      exact ⟨d, rfl, h⟩
    | cons t ts =>
      exfalso
      simp only [toggleAll, toggle, bind, Except.bind, hg] at ht
      split at ht
      · cases ht
      · next heq =>
        split at heq
        · cases heq
        · cases heq
  | some g =>
    have hm := toggleAll_mem ts hc hg ht
    rw [toggleAll_spec ts hc hg hm] at ht
    cases ht
    have hidx : d.entries.map (·.idx) = c.entries.map (·.idx) := shapes_map h.entries _ (·.1) fun _ => rfl
    cases hg' : d.generation with
    | none => have := h.gen; rw [hg, hg'] at this; cases this
    | some g' =>
      refine ⟨_, toggleAll_spec us (h.core hc) hg' (fun i hi => by rw [hidx]; exact hm i (hp.mem_iff.1 hi)), ?_⟩
      refine h.mapE _ _ (fun s => (s.1, s.2.1, s.2.2.1, xor s.2.2.2 (ts.count s.1 % 2 == 1))) (fun e => ?_) (fun e => ?_)
      · exact flips_shape g _ e
      · rw [flips_shape, hp.count_eq]
        rfl

/-! ### Entries stay consistent when values are dropped -/

theorem popOne_perm {c c' : Codec} (h : popOne c = .ok c') : c' = c ∨
    ∃ ve rest, c.lru = some ve :: rest ∧ c'.statics = c.statics ∧ c'.lru = rest ∧ c'.keyMap = c.keyMap ∧ c'.keyIdx = c.keyIdx ∧
      c'.nextKey = c.nextKey ∧ c'.nextLru = c.nextLru ∧ c'.numVals = c.numVals - 1 ∧ c'.generation = c.generation := by
  unfold popOne at h
  cases hl : c.lru with
  | nil => rw [hl] at h; cases h; exact .inl rfl
  | cons x rest =>
    rw [hl] at h
    cases x with
    | none => cases h; exact .inl rfl
    | some ve =>
      right
      simp only at h
      split at h
      · cases h
      · cases h
        refine ⟨ve, rest, rfl, ?_⟩
        unfold removeVal
        simp only
        split
        · exact ⟨rfl, rfl, rfl, rfl, rfl, rfl, rfl, rfl⟩
        · exact ⟨rfl, rfl, rfl, rfl, rfl, rfl, rfl, rfl⟩

/-- The state after making space. -/
structure Spaced (c c' : Codec) : Prop where
  core : Core c'
  sub : c'.entries.Sublist c.entries
  key : ∀ x, keyOf c' x = keyOf c x
  gen : c'.generation = c.generation
  next : c'.nextLru = c.nextLru
  pin : none ∈ c.lru → none ∈ c'.lru

theorem popOne_core {c c' : Codec} (hc : Core c) (h : popOne c = .ok c') : Spaced c c' := by
  rcases popOne_perm h with rfl | ⟨ve, rest, h0, h1, h2, h3, h4, h5, h6, h7, h8⟩
  · exact ⟨hc, .refl _, fun _ => rfl, rfl, rfl, fun h => h⟩
  · have he : c.entries = c.statics ++ ve :: rest.filterMap id := by simp [Codec.entries, h0]
    have he' : c'.entries = c.statics ++ rest.filterMap id := by simp [Codec.entries, h1, h2]
    have hs : c'.entries.Sublist c.entries := by
      rw [he, he']
      exact (List.sublist_cons_self _ _).append_left _
    have hk : ∀ x, keyOf c' x = keyOf c x := fun x => by unfold keyOf; rw [h3]
    refine ⟨⟨hc.idx.sublist (hs.map _), fun e hm => by rw [h6]; exact hc.idxLe e (hs.subset hm), hc.kv.sublist (hs.map _),
      fun e hm => by rw [hk]; exact hc.keys e (hs.subset hm), fun k i hi => ?_, by rw [h4, h5]; exact hc.keyLe, ?_⟩, hs, hk, h8, h6, fun hm => ?_⟩
    · rw [hk] at hi
      rw [h4]
      exact hc.keyIdx k i hi
    · rw [h7, hc.num, he, he']
      simp only [List.length_append, List.length_cons]
      omega
    · rw [h0] at hm
      rw [h2]
      simpa using hm

theorem makeSpace_core {c c' : Codec} {n : Nat} {a : Int} (hc : Core c) (h : makeSpace c n a = .ok c') : Spaced c c' := by
  unfold makeSpace at h
  split at h
  · exact popOne_core hc h
  · split at h
    · cases h
    · cases h
      exact ⟨hc, .refl _, fun _ => rfl, rfl, rfl, fun h => h⟩

/-- The state after adding a key. -/
structure Keyed (c : Codec) (k : Str) (c' : Codec) : Prop where
  core : Core c'
  sub : c'.entries.Sublist c.entries
  key : (keyOf c' k).isSome
  gen : c'.generation = c.generation
  next : c'.nextLru = c.nextLru
  pin : none ∈ c.lru → none ∈ c'.lru

theorem findOrAddKey_core {c c' : Codec} {k : Str} (hc : Core c) (h : findOrAddKey c k = .ok c') : Keyed c k c' := by
  unfold findOrAddKey at h
  rw [has_key] at h
  split at h
  · next hk =>
    cases h
    exact ⟨hc, .refl _, hk, rfl, rfl, fun h => h⟩
  · next hk =>
    cases e1 : makeSpace c (List.length k) 0 with
    | error e => simp only [e1, bind, Except.bind] at h; cases h
    | ok c1 =>
      simp only [e1, bind, Except.bind] at h
      have h1 := makeSpace_core hc e1
      split at h
      · cases h
      · cases h
        have hkey : ∀ x, (Dict.get? (c1.keyMap.set k { idx := c1.nextKey + 1 }) x).map (·.idx) =
            if k = x then some (c1.nextKey + 1) else keyOf c1 x := by
          intro x
          rw [Dict.get?_set]
          split <;> rfl
        refine ⟨⟨h1.core.idx, h1.core.idxLe, h1.core.kv, fun e he => ?_, fun x i hi => ?_, fun i hi => ?_, h1.core.num⟩, h1.sub, ?_, h1.gen,
          h1.next, h1.pin⟩
        · show ((Dict.get? _ _).map _).isSome = true
          rw [hkey]
          split
          · rfl
          · exact h1.core.keys e he
        · replace hi : (Dict.get? _ _).map _ = some i := hi
          rw [hkey] at hi
          show Dict.get? (Dict.set _ _ _) _ = _
          rw [Dict.get?_set]
          split at hi
          · next e =>
            cases hi
            rw [if_pos rfl, e]
          · have := h1.core.keyIdx x i hi
            have hle : i ≤ c1.nextKey := h1.core.keyLe i (by
              by_contra hno
              rw [Dict.get?_none.2 hno] at this
              cases this)
            rw [if_neg (by omega)]
            exact this
        · replace hi : i ∈ Dict.keys (Dict.set _ _ _) := hi
          rw [Dict.keys_set] at hi
          split at hi
          · exact (h1.core.keyLe i hi).trans (Nat.le_succ _)
          · rcases List.mem_append.1 hi with hi | hi
            · exact (h1.core.keyLe i hi).trans (Nat.le_succ _)
            · rw [List.mem_singleton.1 hi]
        · show ((Dict.get? _ _).map _).isSome = true
          rw [hkey, if_pos rfl]
          rfl

theorem storeEntry_core {c c' : Codec} {k v : Str} (hc : Core c) (h : storeEntry c k v = .ok c') : Core c' ∧
    c'.generation = c.generation ∧ (none ∈ c.lru → none ∈ c'.lru) := by
  unfold storeEntry insertVal at h
  cases e1 : findOrAddKey c k with
  | error e => simp only [e1, bind, Except.bind] at h; cases h
  | ok c1 =>
    simp only [e1, bind, Except.bind] at h
    have h1 := findOrAddKey_core hc e1
    by_cases hf : (findVal c1 k v).isSome = true
    · simp only [hf, if_true] at h; cases h
    · simp only [hf, Bool.false_eq_true, if_false] at h
      have hnew : (k, v) ∉ c1.entries.map VE.kv := by
        rw [← findVal_none]
        cases hx : findVal c1 k v with
        | none => rfl
        | some x => rw [hx] at hf; exact absurd rfl hf
      have hs1 := refCnt_same c1 k 1
      obtain ⟨-, l1, -, n1, -, -, g1, -⟩ := refCnt_rest c1 k 1
      cases e2 : makeSpace (refCnt c1 k 1) (List.length v) 1 with
      | error e => simp only [e2] at h; cases h
      | ok c2 =>
        simp only [e2, pure, Except.pure] at h
        have h2 := makeSpace_core (hs1.core h1.core) e2
        obtain ⟨⟨km, e3⟩, k3, -⟩ := refCnt_same { c2 with numVals := c2.numVals + 1 } k (-1)
        rw [e3] at h
        simp only at h
        cases hg : c2.generation with
        | none => rw [hg] at h; cases h
        | some g =>
          rw [hg] at h
          cases h
          have hsub : c2.entries.Sublist c1.entries := by rw [← hs1.entries]; exact h2.sub
          have hkk : (keyOf c2 k).isSome := by rw [h2.key, hs1.key]; exact h1.key
          have hk3 : ∀ x, (Dict.get? km x).map (·.idx) = keyOf c2 x := by
            intro x
            have := k3 x
            rw [e3] at this
            exact this
          have hee := entries_append c2 ⟨c2.nextLru + 1, k, v, some g⟩ { c2 with
            lru := c2.lru ++ [some ⟨c2.nextLru + 1, k, v, some g⟩]
            keyMap := km
            nextLru := c2.nextLru + 1
            numVals := c2.numVals + 1
            generation := some g } rfl rfl
          refine ⟨⟨?_, ?_, ?_, ?_, ?_, h2.core.keyLe, ?_⟩, ?_, ?_⟩
          · rw [hee, List.map_append, List.nodup_append]
            refine ⟨h2.core.idx, by simp, ?_⟩
            intro a ha b hb
            obtain ⟨e, he, rfl⟩ := List.mem_map.1 ha
            have := h2.core.idxLe e he
            simp only [List.map_cons, List.map_nil, List.mem_singleton] at hb
            omega
          · rw [hee]
            intro e he
            rcases List.mem_append.1 he with he | he
            · exact (h2.core.idxLe e he).trans (Nat.le_succ _)
            · rw [List.mem_singleton.1 he]
          · rw [hee, List.map_append, List.nodup_append]
            refine ⟨h2.core.kv, by simp, ?_⟩
            intro a ha b hb hab
            simp only [List.map_cons, List.map_nil, List.mem_singleton] at hb
            subst hab hb
            exact hnew ((hsub.map _).subset ha)
          · rw [hee]
            intro e he
            show ((Dict.get? km _).map _).isSome = true
            rw [hk3]
            rcases List.mem_append.1 he with he | he
            · exact h2.core.keys e he
            · rw [List.mem_singleton.1 he]; exact hkk
          · intro x i hi
            replace hi : (Dict.get? km x).map _ = some i := hi
            rw [hk3] at hi
            exact h2.core.keyIdx x i hi
          · rw [hee, List.length_append, h2.core.num]
            rfl
          · show some g = _
            rw [← hg, h2.gen, g1, h1.gen]
          · intro hm
            have : none ∈ c2.lru := h2.pin (by rw [l1]; exact h1.pin hm)
            simp [this]

theorem cloneAll_core (ops : List (Nat × Str × Bool)) : ∀ {c c' : Codec} (_ : Core c) (_ : cloneAll ops c = .ok c'), Core c' ∧
    c'.generation = c.generation ∧ (none ∈ c.lru → none ∈ c'.lru) := by
  induction ops with
  | nil => intro c c' hc h; cases h; exact ⟨hc, rfl, fun h => h⟩
  | cons op ops ih =>
    intro c c' hc h
    obtain ⟨k, v, b⟩ := op
    unfold cloneAll at h
    cases hk : c.keyIdx.get? k with
    | none => rw [hk] at h; cases h
    | some key =>
      rw [hk] at h
      simp only [bind, Except.bind] at h
      cases e1 : storeEntry c key v with
      | error e => rw [e1] at h; cases h
      | ok c1 =>
        rw [e1] at h
        obtain ⟨a1, a2, a3⟩ := storeEntry_core hc e1
        obtain ⟨b1, b2, b3⟩ := ih a1 h
        exact ⟨b1, b2.trans a2, fun h => b3 (a3 h)⟩

theorem kvstoAll_core (ops : List (Str × Str × Bool)) : ∀ {c c' : Codec} (_ : Core c) (_ : kvstoAll ops c = .ok c'), Core c' ∧
    c'.generation = c.generation ∧ (none ∈ c.lru → none ∈ c'.lru) := by
  induction ops with
  | nil => intro c c' hc h; cases h; exact ⟨hc, rfl, fun h => h⟩
  | cons op ops ih =>
    intro c c' hc h
    obtain ⟨k, v, b⟩ := op
    unfold kvstoAll at h
    simp only [bind, Except.bind] at h
    cases e1 : storeEntry c k v with
    | error e => rw [e1] at h; cases h
    | ok c1 =>
      rw [e1] at h
      obtain ⟨a1, a2, a3⟩ := storeEntry_core hc e1
      obtain ⟨b1, b2, b3⟩ := ih a1 h
      exact ⟨b1, b2.trans a2, fun h => b3 (a3 h)⟩

/-! ### A message -/

theorem Sim.mono {off off' : Str → Nat} {c d : Codec} (h : Sim off c d) (hl : ∀ x, off' x ≤ off x) : Sim off' c d :=
  ⟨h.statics, h.lru, h.key, h.keyIdx, h.nextKey, h.nextLru, h.num, h.size,
    fun x kc kd hc hd => by have := h.ref x kc kd hc hd; have := hl x; omega, fun x hx => h.known x (lt_of_lt_of_le hx (hl x)), h.gen⟩

/-- The sender counts its known keys. -/
theorem Sim.count {ks : List Str} : ∀ {off : Str → Nat} {c d : Codec} (_ : Sim off c d) (_ : ∀ k ∈ ks, (keyOf c k).isSome),
    Sim (fun x => off x + ks.count x) (ks.foldl (fun c k => refCnt c k 1) c) d := by
  induction ks with
  | nil => intro off c d h _; simpa using h
  | cons k ks ih =>
    intro off c d h hk
    obtain ⟨a1, a2, a3, a4, a5, a6, a7, a8⟩ := refCnt_rest c k 1
    have hc := (refCnt_same c k 1).key
    have h1 : Sim (fun x => off x + if x = k then 1 else 0) (refCnt c k 1) d := by
      refine ⟨by rw [a1]; exact h.statics, by rw [a2]; exact h.lru, fun x => by rw [hc]; exact h.key x, by rw [a8]; exact h.keyIdx,
        by rw [a3]; exact h.nextKey, by rw [a4]; exact h.nextLru, by rw [a6]; exact h.num, by rw [a5]; exact h.size,
        fun x kc kd ec ed => ?_, fun x hx => ?_, by rw [a7]; exact h.gen⟩
      · rw [refCnt_get, Option.map_eq_some_iff] at ec
        obtain ⟨kc', ec, rfl⟩ := ec
        have := h.ref x kc' kd ec ed
        split
        · simp only; push_cast; omega
        · simpa using this
      · rw [hc]
        by_cases e : x = k
        · rw [e]; exact hk k (by simp)
        · exact h.known x (by simpa [e] using hx)
    have h2 := ih h1 (fun x hx => by rw [hc]; exact hk x (by simp [hx]))
    refine h2.mono fun x => ?_
    rw [List.count_cons]
    by_cases e : x = k
    · simp [e]; omega
    · simp [e, Ne.symm e]

/-- And forgets about it. -/
theorem Sim.uncount {ks : List Str} : ∀ {off : Str → Nat} {c d : Codec} (_ : Sim (fun x => off x + ks.count x) c d),
    Sim off (ks.foldl (fun c k => refCnt c k (-1)) c) d := by
  induction ks with
  | nil => intro off c d h; simpa using h
  | cons k ks ih =>
    intro off c d h
    obtain ⟨a1, a2, a3, a4, a5, a6, a7, a8⟩ := refCnt_rest c k (-1)
    have hc := (refCnt_same c k (-1)).key
    refine ih (c := refCnt c k (-1)) ?_
    refine ⟨by rw [a1]; exact h.statics, by rw [a2]; exact h.lru, fun x => by rw [hc]; exact h.key x, by rw [a8]; exact h.keyIdx,
      by rw [a3]; exact h.nextKey, by rw [a4]; exact h.nextLru, by rw [a6]; exact h.num, by rw [a5]; exact h.size,
      fun x kc kd ec ed => ?_, fun x hx => ?_, by rw [a7]; exact h.gen⟩
    · rw [refCnt_get, Option.map_eq_some_iff] at ec
      obtain ⟨kc', ec, rfl⟩ := ec
      have := h.ref x kc' kd ec ed
      simp only [List.count_cons] at this
      split
      · next e => simp [e] at this ⊢; omega
      · next e =>
        simp [Ne.symm e] at this ⊢; omega
    · rw [hc]
      exact h.known x (by simp only [List.count_cons]; omega)

theorem filter_shape {l m : List VE} (h : l.map VE.shape = m.map VE.shape) (p : VE → Bool) (p' : Nat × Str × Str × Bool → Bool)
    (hp : ∀ e, p e = p' e.shape) : (l.filter p).map VE.shape = (m.filter p).map VE.shape := by
  have : p = p' ∘ VE.shape := funext hp
  rw [this, ← List.filter_map, ← List.filter_map, h]

theorem filter_shape_lru {l m : List (Option VE)} (h : l.map (Option.map VE.shape) = m.map (Option.map VE.shape)) (p : Option VE → Bool)
    (p' : Option (Nat × Str × Str × Bool) → Bool) (hp : ∀ e, p e = p' (e.map VE.shape)) :
    (l.filter p).map (Option.map VE.shape) = (m.filter p).map (Option.map VE.shape) := by
  have : p = p' ∘ Option.map VE.shape := funext hp
  rw [this, ← List.filter_map, ← List.filter_map, h]

theorem sort_shape {l m : List VE} (h : l.map VE.shape = m.map VE.shape) :
    (sortBy (fun a b => decide (a.idx ≤ b.idx)) l).map VE.shape = (sortBy (fun a b => decide (a.idx ≤ b.idx)) m).map VE.shape := by
  rw [← sortBy_map VE.shape (fun a b => decide (a.idx ≤ b.idx)) (fun a b => decide (a.1 ≤ b.1)) (fun _ _ => rfl),
    ← sortBy_map VE.shape (fun a b => decide (a.idx ≤ b.idx)) (fun a b => decide (a.1 ≤ b.1)) (fun _ _ => rfl), h]

theorem Sim.group {off : Str → Nat} {c d : Codec} (h : Sim off c d) :
    (sortBy (fun a b => decide (a.idx ≤ b.idx)) (d.entries.filter fun ve => ve.gen.isSome)).map VE.shape =
    (sortBy (fun a b => decide (a.idx ≤ b.idx)) (c.entries.filter fun ve => ve.gen.isSome)).map VE.shape :=
  sort_shape (filter_shape h.entries _ (fun s => s.2.2.2) fun _ => rfl)

theorem reidx_shape (i j : Nat) (e : VE) : (reidx i j e).shape = if e.shape.1 = i then (j, e.shape.2) else e.shape := by
  unfold reidx VE.shape
  simp only
  split <;> rfl

theorem Sim.renumber {off : Str → Nat} {c d : Codec} (h : Sim off c d) (i : Nat) : Sim off (renumber c i) (renumber d i) := by
  have hl : (d.lru.filter (fun x => !isIdx i x) ++ d.lru.filter (isIdx i)).map (Option.map VE.shape) =
      (c.lru.filter (fun x => !isIdx i x) ++ c.lru.filter (isIdx i)).map (Option.map VE.shape) := by
    rw [List.map_append, List.map_append]
    congr 1
    · refine filter_shape_lru h.lru _ (fun x => !(x.elim false fun s => decide (s.1 = i))) fun e => ?_
      cases e <;> rfl
    · refine filter_shape_lru h.lru _ (fun x => x.elim false fun s => decide (s.1 = i)) fun e => ?_
      cases e <;> rfl
  have h1 : Sim off { c with lru := c.lru.filter (fun x => !isIdx i x) ++ c.lru.filter (isIdx i) }
      { d with lru := d.lru.filter (fun x => !isIdx i x) ++ d.lru.filter (isIdx i) } :=
    ⟨h.statics, hl, h.key, h.keyIdx, h.nextKey, h.nextLru, h.num, h.size, h.ref, h.known, h.gen⟩
  have h2 := h1.mapE (reidx i (c.nextLru + 1)) (reidx i (d.nextLru + 1)) (fun s => if s.1 = i then (c.nextLru + 1, s.2) else s)
    (reidx_shape _ _) (by rw [h.nextLru]; exact reidx_shape _ _)
  exact ⟨h2.statics, h2.lru, h2.key, h2.keyIdx, h2.nextKey, by show d.nextLru + 1 = c.nextLru + 1; rw [h.nextLru], h2.num, h2.size, h2.ref,
    h2.known, h2.gen⟩

theorem Sim.renumbers {off : Str → Nat} (is : List Nat) : ∀ {c d : Codec} (_ : Sim off c d),
    Sim off (is.foldl DeltaBohe.renumber c) (is.foldl DeltaBohe.renumber d) := by
  induction is with
  | nil => exact fun h => h
  | cons i is ih => exact fun h => ih (h.renumber i)

theorem Sim.adjust {off : Str → Nat} {c d : Codec} (h : Sim off c d) : Sim off (adjust c) (adjust d) := by
  unfold DeltaBohe.adjust
  have := congrArg (List.map Prod.fst) h.group
  rw [List.map_map, List.map_map] at this
  have hf : (Prod.fst ∘ VE.shape) = VE.idx := rfl
  rw [hf] at this
  rw [this]
  exact h.renumbers _

theorem Sim.nopin {off : Str → Nat} {c d : Codec} (h : Sim off c d) (hc : none ∉ c.lru) : none ∉ d.lru := by
  intro hm
  have : (none : Option VE).map VE.shape ∈ d.lru.map (Option.map VE.shape) := List.mem_map.2 ⟨none, hm, rfl⟩
  rw [h.lru] at this
  obtain ⟨x, hx, he⟩ := List.mem_map.1 this
  cases x with
  | none => exact hc hx
  | some e => cases he

theorem Sim.unpin {off : Str → Nat} {c d : Codec} (h : Sim off c d) : Sim off (unpin c) (unpin d) := by
  refine ⟨h.statics, ?_, h.key, h.keyIdx, h.nextKey, h.nextLru, h.num, h.size, h.ref, h.known, h.gen⟩
  refine filter_shape_lru h.lru _ (fun x => x.isSome) fun e => ?_
  cases e <;> rfl

theorem unpin_nopin (c : Codec) : none ∉ (unpin c).lru := by
  intro hm
  have := List.of_mem_filter hm
  cases this

/-- What a receiver does with the operations of a message. -/
theorem sim_message {L : Libs} {ord : List VE → List VE} {c d c' : Codec} {headers : List Hdr} {g : Instrs} (hs : Sim (fun _ => 0) c d)
    (hc : Core c) (h : makeOperations L ord c headers = .ok (c', g)) :
    Core c' ∧ c'.generation.isSome ∧ ∃ d', execOps d g = .ok d' ∧ Sim (fun _ => 0) c' (generate d').1 ∧ Core d' ∧
      none ∉ d'.lru := by
  unfold makeOperations at h
  by_cases hp : none ∈ c.lru
  · simp only [pin, if_pos hp, bind, Except.bind] at h; cases h
  · have hpd := hs.nopin hp
    simp only [pin, if_neg hp, bind, Except.bind] at h
    have hknown : knownKeys (findOrMake { c with lru := c.lru ++ [none] }) headers = knownKeys c headers := rfl
    have hopen : (knownKeys c headers).foldl (fun c k => refCnt c k 1)
        (findOrMake { c with lru := c.lru ++ [none] }) = opened c headers := rfl
    rw [hknown, hopen] at h
    have hcore := opened_core hc headers
    have hgen := (opened_rest c headers).2.2.2.2.2.2.2
    rw [headersLoop_eq L headers hcore hgen] at h
    cases hes : sentList L headers with
    | error e => rw [hes] at h; cases h
    | ok es =>
      rw [hes] at h
      simp only [Except.bind] at h
      rw [processAll_spec es hcore hgen] at h
      simp only [List.nil_append, executeInstrs, bind, Except.bind] at h
      set c2 := mapE (touch (gen c) es) (opened c headers) with hc2
      have hcore2 : Core c2 := hcore.mapE (touch_idx _ _) (touch_kv _ _)
      generalize hts : es.filterMap (toggleOf (opened c headers)) ++ turnOffs ord c2 = ts at h
      cases h3 : toggleAll ts c2 with
      | error e => rw [h3] at h; cases h
      | ok c3 =>
        rw [h3] at h
        simp only at h
        cases h4 : cloneAll (es.filterMap (cloneOf (opened c headers))) c3 with
        | error e => rw [h4] at h; cases h
        | ok c4 =>
          rw [h4] at h
          simp only at h
          cases h5 : kvstoAll (es.filterMap (kvstoOf (opened c headers))) c4 with
          | error e => rw [h5] at h; cases h
          | ok c5 =>
            rw [h5] at h
            cases h
            have hgen2 : c2.generation = some (gen c) := hgen
            have hcore3 : Core c3 ∧ c3.generation = some (gen c) := by
              rw [toggleAll_spec ts hcore2 hgen2 (toggleAll_mem ts hcore2 hgen2 h3)] at h3
              cases h3
              exact ⟨hcore2.mapE (flips_idx' _ _) (flips_kv' _ _), hgen2⟩
            obtain ⟨hcore4, g4, -⟩ := cloneAll_core _ hcore3.1 h4
            obtain ⟨hcore5, g5, -⟩ := kvstoAll_core _ hcore4 h5
            have hcl := closed_core (known := knownKeys c headers) hcore5
            have hcn : none ∉ (closed (knownKeys c headers) c5).lru := unpin_nopin _
            obtain ⟨a1, a2, -, -, -, -, -, a3⟩ := adjust_full hcl hcn
            have hgc : (closed (knownKeys c headers) c5).generation.isSome := by
              rw [(closed_rest (knownKeys c headers) c5).2.2.2.1, g5, g4, hcore3.2]
              rfl
            -- the receiver
            have s0 : Sim (fun _ => 0) (findOrMake { c with lru := c.lru ++ [none] }) (findOrMake { d with lru := d.lru ++ [none] }) := by
              refine ⟨hs.statics, ?_, hs.key, hs.keyIdx, hs.nextKey, hs.nextLru, hs.num, hs.size, hs.ref, hs.known, rfl⟩
              show (d.lru ++ [none]).map _ = (c.lru ++ [none]).map _
              rw [List.map_append, List.map_append, hs.lru]
            have s1 : Sim (fun x => 0 + (knownKeys c headers).count x) (opened c headers) (findOrMake { d with lru := d.lru ++ [none] }) := by
              have := s0.count (ks := knownKeys c headers) (fun k hk => by
                have := List.of_mem_filter hk
                rwa [has_key] at this)
              exact this
            have s2 : Sim (fun x => 0 + (knownKeys c headers).count x) c2 (findOrMake { d with lru := d.lru ++ [none] }) := by
              have := s1.mapE (touch (gen c) es) (fun e => e) id (fun e => by
                have h1 := touch_idx (gen c) es e
                have h2 := touch_kv (gen c) es e
                have h3 := touch_isSome (gen c) es e
                simp only [VE.kv, Prod.mk.injEq] at h2
                simp only [VE.shape, h1, h2, h3, id]) (fun e => rfl)
              rwa [mapE_id] at this
            obtain ⟨d3, e3, s3⟩ := s2.toggles hcore2 (Delta1.toggleRanges_spec ts).1 h3
            obtain ⟨d4, e4, s4⟩ := s3.clones _ h4
            obtain ⟨d5, e5, s5⟩ := s4.kvstos _ h5
            have s6 : Sim (fun _ => 0) (unpin ((knownKeys c headers).foldl (fun c k => refCnt c k (-1)) c5)) (unpin d5) := s5.uncount.unpin
            have s7 : Sim (fun _ => 0) (closed (knownKeys c headers) c5) (unpin d5) :=
              ⟨s6.statics, s6.lru, s6.key, s6.keyIdx, s6.nextKey, s6.nextLru, s6.num, s6.size, s6.ref, s6.known, by
                have := s6.gen
                rw [this]
                show _ = ((unpin _).generation.map _).isSome
                rw [Option.isSome_map]⟩
            refine ⟨a1, (congrArg Option.isSome a3).trans hgc, unpin d5, ?_, s7.adjust, s7.core hcl, unpin_nopin _⟩
            unfold execOps
            simp only [pin, if_neg hpd, bind, Except.bind]
            have e3' : toggleAll ((Delta1.toggleRanges ts).ot ++ (Delta1.toggleRanges ts).otr.flatMap fun x =>
                (List.range (x.2 + 1 - x.1)).map (x.1 + ·)) (findOrMake { d with lru := d.lru ++ [none] }) = .ok d3 := e3
            rw [e3']
            simp only [e4, e5, pure, Except.pure]

end Verif.DeltaBohe
