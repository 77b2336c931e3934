import Verif.Delta2Bohe.StoreLemmas
/- Lemmas about how delta2_bohe makes operations for the headers of a message. -/
namespace Verif.Delta2Bohe
open Verif

/-- The entries of the static storage. -/
def staticEntries : List Entry := defaultKvs.zipIdx.map fun x => ⟨x.1.1, x.1.2, x.2⟩

/-- The static storage. -/
def staticLru : Lru := { ring := staticEntries, byteSize := sizeSum staticEntries, seqNum := 65 }

/-- The empty storage. -/
def lru0 : Lru := { maxBytes := some (16 * 1024), maxItems := some 1024, maxSeq := some (2 ^ 16), offset := 65 }

theorem init_eq : Codec.init = .ok { static := staticLru, lru := lru0 } := by decide +kernel

theorem lru0_ok : LruOk lru0 := by
  refine ⟨rfl, rfl, rfl, rfl, rfl, ?_, ?_, ?_, ?_, ?_⟩
  · decide
  · decide
  · decide
  · decide
  · intro i hi; exact absurd hi (by simp [lru0])

theorem static_lookup : ∀ i < 65, ∃ e, lookup staticLru i = .ok e ∧ staticEntries[i]? = some e ∧ e.seq = i ∧ hsize (e.key, e.val) ≤ 16384 := by
  have h : ∀ i < 65, (match lookup staticLru i, staticEntries[i]? with
    | .ok e, some e' => decide (e = e' ∧ e.seq = i ∧ hsize (e.key, e.val) ≤ 16384)
    | _, _ => false) = true := by decide +kernel
  intro i hi
  have := h i hi
  split at this
  · rename_i e e' h1 h2
    simp only [decide_eq_true_eq] at this
    obtain ⟨rfl, a, b⟩ := this
    exact ⟨e, h1, h2, a, b⟩
  · cases this

theorem static_mem : ∀ e ∈ staticEntries, e.seq < 65 ∧ staticEntries[e.seq]? = some e := by decide +kernel

theorem static_len : staticLru.ring.length = 65 := by decide +kernel

/-- The header with an index. -/
def kvAt (c : Codec) (i : Nat) : Option Hdr :=
  if i < 65 then (staticEntries[i]?).map fun e => (e.key, e.val) else (c.lru.at i).map fun e => (e.key, e.val)

/-- A codec that works. -/
structure CodecOk (c : Codec) : Prop where
  static : c.static = staticLru
  lru : LruOk c.lru
  groups : GOk c.groups
  valid : Valid c

/-- The index can be looked up. -/
def Usable (c : Codec) (i : Nat) : Prop := i < 65 ∨ (c.lru.first ≤ i ∧ i < c.lru.seqNum)

theorem size_le_sum {l : List Entry} {e : Entry} (h : e ∈ l) : e.size ≤ sizeSum l := by
  induction l with
  | nil => cases h
  | cons a l ih =>
    rw [sizeSum_cons]
    rcases List.mem_cons.mp h with rfl | h
    · omega
    · have := ih h; omega

theorem lookupFromIdx_spec {c : Codec} (h : CodecOk c) {i : Nat} (hi : Usable c i) :
    ∃ e, lookupFromIdx c i = .ok e ∧ kvAt c i = some (e.key, e.val) ∧ e.seq = i ∧ hsize (e.key, e.val) ≤ 16384 := by
  have hlo := h.lru.lo
  have hf : 65 ≤ c.lru.first := by unfold Lru.first; omega
  by_cases hlt : i < 65
  · obtain ⟨e, a, b, d, f⟩ := static_lookup i hlt
    exact ⟨e, by simp only [lookupFromIdx, h.static, static_len, hlt, if_true]; exact a, by simp [kvAt, hlt, b], d, f⟩
  · have h1 : c.lru.first ≤ i ∧ i < c.lru.seqNum := by unfold Usable at hi; omega
    obtain ⟨hb, a, d⟩ := lookup_at h.lru h1.1 h1.2
    refine ⟨c.lru.ring[i - c.lru.first], ?_, ?_, d, ?_⟩
    · simp only [lookupFromIdx, h.static, static_len, hlt, if_false]; exact a
    · simp only [kvAt, hlt, if_false, Lru.at, h1.1, if_true, List.getElem?_eq_getElem hb, Option.map_some]
    · have := size_le_sum (List.getElem_mem hb)
      have h2 := h.lru.sizeLe
      simp only [Entry.size] at this
      unfold hsize
      simp only
      omega

theorem ring_mem {c : Codec} (h : CodecOk c) {e : Entry} (he : e ∈ c.lru.ring) : Usable c e.seq ∧ kvAt c e.seq = some (e.key, e.val) := by
  obtain ⟨i, hi, rfl⟩ := List.mem_iff_getElem.mp he
  have hlo := h.lru.lo
  have hs := h.lru.seqs i hi
  have hf : c.lru.first = c.lru.seqNum - c.lru.ring.length := rfl
  refine ⟨Or.inr ⟨by omega, by omega⟩, ?_⟩
  simp only [kvAt]
  rw [if_neg (by omega)]
  simp only [Lru.at]
  rw [if_pos (by omega), show c.lru.ring[i].seq - c.lru.first = i by omega, List.getElem?_eq_getElem hi]
  rfl

theorem findLoop_spec (k v : Str) : ∀ (l : List Entry), (∀ e, (findLoop k v l).1 = some e → e ∈ l ∧ e.key = k) ∧
    (∀ e, (findLoop k v l).2 = some e → e ∈ l ∧ e.key = k ∧ e.val = v) := by
  intro l
  induction l with
  | nil => simp [findLoop]
  | cons a l ih =>
    unfold findLoop
    split
    · rename_i ha
      constructor
      · intro e he; simp at he; subst he; exact ⟨by simp, ha⟩
      · intro e he
        simp at he
        obtain ⟨hv, rfl⟩ := he
        exact ⟨by simp, ha, hv⟩
    · exact ⟨fun e he => ⟨by simp [(ih.1 e he).1], (ih.1 e he).2⟩, fun e he => ⟨by simp [(ih.2 e he).1], (ih.2 e he).2⟩⟩

theorem find_spec (s : Lru) (k v : Str) : (∀ e, (findKeyValEntries s k v).1 = some e → e ∈ s.ring ∧ e.key = k) ∧
    (∀ e, (findKeyValEntries s k v).2 = some e → e ∈ s.ring ∧ e.key = k ∧ e.val = v) := by
  obtain ⟨a, b⟩ := findLoop_spec k v (s.ring.drop 1).reverse
  refine ⟨fun e he => ?_, fun e he => ?_⟩
  · have := a e he
    exact ⟨List.mem_of_mem_drop (List.mem_reverse.mp this.1), this.2⟩
  · have := b e he
    exact ⟨List.mem_of_mem_drop (List.mem_reverse.mp this.1), this.2⟩

theorem static_find {c : Codec} {e : Entry} (he : e ∈ staticLru.ring) : Usable c e.seq ∧ kvAt c e.seq = some (e.key, e.val) := by
  obtain ⟨a, b⟩ := static_mem e he
  exact ⟨Or.inl a, by simp [kvAt, a, b]⟩

theorem findEntryIdx_spec {c : Codec} (h : CodecOk c) (k v : Str) :
    (∀ i, (findEntryIdx c k v).2 = some i → Usable c i ∧ kvAt c i = some (k, v)) ∧
    (∀ i, (findEntryIdx c k v).1 = some i → Usable c i ∧ ∃ w, kvAt c i = some (k, w)) := by
  obtain ⟨a1, a2⟩ := find_spec c.lru k v
  obtain ⟨b1, b2⟩ := find_spec c.static k v
  unfold findEntryIdx
  split
  · rename_i ke ve he
    have e1 := a1 ke (by rw [he])
    have e2 := a2 ve (by rw [he])
    constructor
    · intro i hi
      simp at hi; subst hi
      have := ring_mem h e2.1
      rw [e2.2.1, e2.2.2] at this
      exact this
    · intro i hi
      simp at hi; subst hi
      have := ring_mem h e1.1
      rw [e1.2] at this
      exact ⟨this.1, _, this.2⟩
  · rename_i ke he
    have e1 := a1 ke (by rw [he])
    constructor
    · intro i hi
      simp only [Option.map_eq_some_iff] at hi
      obtain ⟨e, he', rfl⟩ := hi
      have e2 := b2 e he'
      have := static_find (c := c) (by rw [← h.static]; exact e2.1)
      rw [e2.2.1, e2.2.2] at this
      exact this
    · intro i hi
      simp at hi; subst hi
      have := ring_mem h e1.1
      rw [e1.2] at this
      exact ⟨this.1, _, this.2⟩
  · constructor
    · intro i hi
      simp only [Option.map_eq_some_iff] at hi
      obtain ⟨e, he', rfl⟩ := hi
      have e2 := b2 e he'
      have := static_find (c := c) (by rw [← h.static]; exact e2.1)
      rw [e2.2.1, e2.2.2] at this
      exact this
    · intro i hi
      simp only [Option.map_eq_some_iff] at hi
      obtain ⟨e, he', rfl⟩ := hi
      have e2 := b1 e he'
      have := static_find (c := c) (by rw [← h.static]; exact e2.1)
      rw [e2.2] at this
      exact ⟨this.1, _, this.2⟩

theorem findInGroup_spec {c : Codec} (h : CodecOk c) (k v : Str) : ∀ (is : List Nat), (∀ i ∈ is, Usable c i) →
    ∃ r, findInGroup c k v is = .ok r ∧ (∀ i, r = some i → i ∈ is ∧ kvAt c i = some (k, v)) ∧
      (r = none → ∀ i ∈ is, kvAt c i ≠ some (k, v)) := by
  intro is
  induction is with
  | nil => intro _; exact ⟨none, rfl, by simp, by simp⟩
  | cons i is ih =>
    intro hu
    obtain ⟨e, a, b, d, f⟩ := lookupFromIdx_spec h (hu i (by simp))
    by_cases hk : e.key = k ∧ e.val = v
    · refine ⟨some i, by simp [findInGroup, a, bind, Except.bind, hk, pure, Except.pure], ?_, by simp⟩
      intro j hj
      cases hj
      exact ⟨by simp, by rw [b, hk.1, hk.2]⟩
    · obtain ⟨r, e1, e2, e3⟩ := ih (fun j hj => hu j (by simp [hj]))
      refine ⟨r, ?_, ?_, ?_⟩
      · simp only [findInGroup, a, bind, Except.bind, hk, if_false]
        exact e1
      · intro j hj; exact ⟨by simp [(e2 j hj).1], (e2 j hj).2⟩
      · intro hr j hj
        rcases List.mem_cons.mp hj with rfl | hj
        · rw [b]; intro hc; apply hk; cases hc; exact ⟨rfl, rfl⟩
        · exact e3 hr j hj

theorem inG_keys {gs : Dict Nat Group} {gid : Nat} {g : Group} (hg : gs.get? gid = some g) (i : Nat) :
    InG gs gid i ↔ i ∈ g.store.keys := by
  have : InG gs gid i ↔ ∃ n, g.store.get? i = some n := by
    constructor
    · rintro ⟨g', n, a, b⟩; rw [hg] at a; cases a; exact ⟨n, b⟩
    · rintro ⟨n, b⟩; exact ⟨g, n, hg, b⟩
  rw [this]
  by_contra hc
  by_cases hk : i ∈ g.store.keys
  · have : g.store.get? i ≠ none := fun h0 => Dict.get?_none.mp h0 hk
    obtain ⟨n, hn⟩ := Option.ne_none_iff_exists'.mp this
    exact hc ⟨fun _ => hk, fun _ => ⟨n, hn⟩⟩
  · have := Dict.get?_none.mpr hk
    exact hc ⟨fun ⟨n, hn⟩ => by (rw [this] at hn; cases hn), fun h => absurd h hk⟩

theorem hasKV_spec {c : Codec} (h : CodecOk c) {ord : List Nat → List Nat} (ho : ∀ l, (ord l).Perm l) {gid : Nat}
    (hex : ∃ g, c.groups.get? gid = some g) (k v : Str) :
    (∃ i, hasKV ord c gid k v = .ok (touch c gid i, true) ∧ InG c.groups gid i ∧ kvAt c i = some (k, v)) ∨
    (hasKV ord c gid k v = .ok (c, false) ∧ ∀ i, InG c.groups gid i → kvAt c i ≠ some (k, v)) := by
  obtain ⟨g, hg⟩ := hex
  have hmem : ∀ i, i ∈ ord g.store.keys ↔ InG c.groups gid i := by
    intro i; rw [(ho _).mem_iff, inG_keys hg]
  obtain ⟨r, a, b, d⟩ := findInGroup_spec h k v (ord g.store.keys) (fun i hi => h.valid gid i ((hmem i).mp hi))
  cases r with
  | some i =>
    left
    have := b i rfl
    exact ⟨i, by simp [hasKV, theGroup, hg, bind, Except.bind, a, pure, Except.pure], (hmem i).mp this.1, this.2⟩
  | none =>
    right
    exact ⟨by simp [hasKV, theGroup, hg, bind, Except.bind, a, pure, Except.pure], fun i hi => d rfl i ((hmem i).mpr hi)⟩

/-- All headers of a message. -/
def procAll (ord : List Nat → List Nat) (gid : Nat) : List Hdr → Codec → Instrs → Py (Codec × Instrs)
  | [], c, g => .ok (c, g)
  | (k, v) :: ps, c, g => do
    let (c, g) ← processKV ord gid k v c g
    procAll ord gid ps c g

/-- The header of a clone. -/
def cloneHdr (c : Codec) (x : Nat × Str × Bool) : Option Hdr := (kvAt c x.1).map fun h => (h.1, x.2.1)

theorem touch_ok {c : Codec} (h : CodecOk c) {gid j : Nat} (hj : Usable c j) : CodecOk (touch c gid j) := by
  obtain ⟨a, b, d, e, f, g⟩ := touch_spec h.groups gid j
  refine ⟨b.trans h.static, by rw [d]; exact h.lru, a, ?_⟩
  intro x i hi
  rw [d]
  rw [e] at hi
  rcases hi with hi | ⟨-, rfl⟩
  · exact h.valid x i hi
  · exact hj

theorem kvAt_congr {c c' : Codec} (h : c'.lru = c.lru) (i : Nat) : kvAt c' i = kvAt c i := by
  unfold kvAt; rw [h]

theorem procAll_spec {ord : List Nat → List Nat} (ho : ∀ l, (ord l).Perm l) (gid : Nat) : ∀ (ps : List Hdr) (c : Codec) (g : Instrs),
    CodecOk c → (∃ g, c.groups.get? gid = some g) →
    ∃ (c' : Codec) (X V : List Nat) (C : List (Nat × Str × Bool)) (K : List (Str × Str × Bool)), procAll ord gid ps c g = .ok (c', ⟨g.toggl ++ V, g.clone ++ C, g.kvsto ++ K⟩) ∧
      c'.lru = c.lru ∧ CodecOk c' ∧ (∀ x i, InG c'.groups x i ↔ InG c.groups x i) ∧
      (∀ x i, CurG c'.groups x i ↔ CurG c.groups x i ∨ (x = gid ∧ i ∈ X)) ∧ (∃ g, c'.groups.get? gid = some g) ∧
      (∀ i ∈ X, InG c.groups gid i) ∧ (∀ i ∈ V, ¬ InG c.groups gid i ∧ Usable c i) ∧ (∀ x ∈ C, Usable c x.1) ∧
      (ps.map some).Perm (X.map (kvAt c) ++ V.map (kvAt c) ++ C.map (cloneHdr c) ++ K.map fun x => some (x.1, x.2.1)) := by
  intro ps
  induction ps with
  | nil =>
    intro c g h hex
    exact ⟨c, [], [], [], [], by simp [procAll], rfl, h, fun _ _ => Iff.rfl, by simp, hex, by simp, by simp, by simp, by simp⟩
  | cons p ps ih =>
    intro c g h hex
    obtain ⟨k, v⟩ := p
    rcases hasKV_spec h ho hex k v with ⟨i, e1, hin, hkv⟩ | ⟨e1, hnone⟩
    · obtain ⟨ta, tb, td, te, tf, tg⟩ := touch_spec h.groups gid i
      have hin' : ∀ x j, InG (touch c gid i).groups x j ↔ InG c.groups x j := by
        intro x j
        rw [te]
        constructor
        · rintro (h | ⟨rfl, rfl⟩)
          · exact h
          · exact hin
        · exact Or.inl
      obtain ⟨c', X, V, C, K, a1, a2, a3, a4, a5, a6, a7, a8, a9, a10⟩ := ih (touch c gid i) g (touch_ok h (h.valid gid i hin)) tg
      have hkc : ∀ j, kvAt (touch c gid i) j = kvAt c j := kvAt_congr td
      refine ⟨c', i :: X, V, C, K, ?_, a2.trans td, a3, ?_, ?_, a6, ?_, ?_, ?_, ?_⟩
      · simp only [procAll, processKV, e1, bind, Except.bind, pure, Except.pure, if_true]
        exact a1
      · intro x j; rw [a4, hin']
      · intro x j
        rw [a5, tf]
        simp only [List.mem_cons]
        tauto
      · intro j hj
        rcases List.mem_cons.mp hj with rfl | hj
        · exact hin
        · exact (hin' _ _).mp (a7 j hj)
      · intro j hj
        have := a8 j hj
        rw [hin'] at this
        unfold Usable at *
        rw [td] at this
        exact this
      · intro x hx
        have := a9 x hx
        unfold Usable at *
        rw [td] at this
        exact this
      · have hc : cloneHdr (touch c gid i) = cloneHdr c := by funext x; simp [cloneHdr, hkc]
        rw [show kvAt (touch c gid i) = kvAt c from funext hkc, hc] at a10
        simp only [List.map_cons, List.cons_append, hkv]
        exact a10.cons _
    · obtain ⟨s1, s2⟩ := findEntryIdx_spec h k v
      cases hf : findEntryIdx c k v with
      | mk ki vi =>
        rw [hf] at s1 s2
        cases vi with
        | some w =>
          obtain ⟨hu, hkv⟩ := s1 w rfl
          have hnin : ¬ InG c.groups gid w := fun hi => hnone w hi hkv
          obtain ⟨grp, hg⟩ := hex
          have hhas : grp.store.has w = false := by
            rw [inG_keys hg] at hnin
            simp [Dict.has, Dict.get?_none.mpr hnin]
          obtain ⟨c', X, V, C, K, a1, a2, a3, a4, a5, a6, a7, a8, a9, a10⟩ := ih c ⟨g.toggl ++ [w], g.clone, g.kvsto⟩ h ⟨grp, hg⟩
          refine ⟨c', X, w :: V, C, K, ?_, a2, a3, a4, a5, a6, a7, ?_, a9, ?_⟩
          · simp only [procAll, processKV, e1, bind, Except.bind, pure, Except.pure, Bool.false_eq_true, if_false, hf, theGroup, hg,
              hhas]
            simpa using a1
          · intro j hj
            rcases List.mem_cons.mp hj with rfl | hj
            · exact ⟨hnin, hu⟩
            · exact a8 j hj
          · simp only [List.map_cons, hkv]
            refine (a10.cons _).trans ?_
            simp only [List.append_assoc, List.cons_append]
            exact List.perm_middle.symm
        | none =>
          cases ki with
          | some w =>
            obtain ⟨hu, u, hkv⟩ := s2 w rfl
            obtain ⟨c', X, V, C, K, a1, a2, a3, a4, a5, a6, a7, a8, a9, a10⟩ := ih c ⟨g.toggl, g.clone ++ [(w, v, decide (k ∉ Bohe.encoderNames))], g.kvsto⟩ h hex
            refine ⟨c', X, V, (w, v, decide (k ∉ Bohe.encoderNames)) :: C, K, ?_, a2, a3, a4, a5, a6, a7, a8, ?_, ?_⟩
            · simp only [procAll, processKV, e1, bind, Except.bind, pure, Except.pure, Bool.false_eq_true, if_false, hf]
              simpa using a1
            · intro j hj
              rcases List.mem_cons.mp hj with rfl | hj
              · exact hu
              · exact a9 j hj
            · have hc : cloneHdr c (w, v, decide (k ∉ Bohe.encoderNames)) = some (k, v) := by simp [cloneHdr, hkv]
              simp only [List.map_cons, hc]
              refine (a10.cons _).trans ?_
              have := (List.perm_middle (a := some (k, v)) (l₁ := X.map (kvAt c) ++ V.map (kvAt c))
                (l₂ := C.map (cloneHdr c) ++ K.map fun x => some (x.1, x.2.1))).symm
              simpa only [List.append_assoc, List.cons_append] using this
          | none =>
            obtain ⟨c', X, V, C, K, a1, a2, a3, a4, a5, a6, a7, a8, a9, a10⟩ := ih c ⟨g.toggl, g.clone, g.kvsto ++ [(k, v, decide (k ∉ Bohe.encoderNames))]⟩ h hex
            refine ⟨c', X, V, C, (k, v, decide (k ∉ Bohe.encoderNames)) :: K, ?_, a2, a3, a4, a5, a6, a7, a8, a9, ?_⟩
            · simp only [procAll, processKV, e1, bind, Except.bind, pure, Except.pure, Bool.false_eq_true, if_false, hf]
              simpa using a1
            · simp only [List.map_cons]
              exact (a10.cons _).trans List.perm_middle.symm

end Verif.Delta2Bohe
