import Verif.Delta2Bohe.GroupLemmas
/- Lemmas about storing entries in delta2_bohe. -/
namespace Verif.Delta2Bohe
open Verif

/-- The storage after a list of headers has been stored. -/
def afterL : List Hdr → Lru → Lru
  | [], s => s
  | (k, v) :: t, s =>
    match insL s k v with
    | .ok r => afterL t r.1
    | .error _ => s

/-- The entry with a number. -/
def Lru.at (s : Lru) (i : Nat) : Option Entry := if s.first ≤ i then s.ring[i - s.first]? else none

/-- The number is static or still in the storage. -/
def Alive (s : Lru) (i : Nat) : Prop := i < 65 ∨ s.first ≤ i

/-- What a group holds is static or in the storage. -/
def Valid (c : Codec) : Prop := ∀ gid i, InG c.groups gid i → i < 65 ∨ (c.lru.first ≤ i ∧ i < c.lru.seqNum)

/-- The bytes of a header. -/
def hsize (h : Hdr) : Nat := h.2.length + h.1.length

theorem first_le {s : Lru} : s.first ≤ s.seqNum := by unfold Lru.first; omega

theorem seq_popped {s : Lru} (hs : LruOk s) {n : Nat} (hn : n ≤ s.ring.length) (i : Nat) :
    (∀ e ∈ s.ring.take n, e.seq ≠ i) ↔ ¬ (s.first ≤ i ∧ i < s.first + n) := by
  have hlo := hs.lo
  constructor
  · rintro h ⟨h1, h2⟩
    have hl : i - s.first < s.ring.length := by omega
    refine h (s.ring[i - s.first]) ?_ ?_
    · rw [List.mem_take_iff_getElem]
      exact ⟨i - s.first, by omega, rfl⟩
    · rw [hs.seqs]; unfold Lru.first at *; omega
  · intro h e he hi
    rw [List.mem_take_iff_getElem] at he
    obtain ⟨j, hj, rfl⟩ := he
    rw [hs.seqs] at hi
    unfold Lru.first at h
    omega

/-- Storing one header. -/
theorem insertVal_spec {c : Codec} (hl : LruOk c.lru) (hg : GOk c.groups) (hv : Valid c) {k v : Str}
    (hsz : hsize (k, v) ≤ 16384) (hq : c.lru.seqNum < 65536) :
    ∃ c', insertVal c k v = .ok (c', c.lru.seqNum) ∧ c'.static = c.static ∧ c'.lru = afterL [(k, v)] c.lru ∧ LruOk c'.lru ∧
      GOk c'.groups ∧ Valid c' ∧ c'.lru.seqNum = c.lru.seqNum + 1 ∧ c.lru.first ≤ c'.lru.first ∧ c'.lru.first ≤ c.lru.seqNum ∧
      (∀ x i, InG c'.groups x i ↔ InG c.groups x i ∧ Alive c'.lru i) ∧
      (∀ x i, CurG c'.groups x i ↔ CurG c.groups x i ∧ Alive c'.lru i) := by
  obtain ⟨n, hn, s', e, hs', hr, hsq, -⟩ := insL_spec hl k v hsz hq
  have hlo := hl.lo
  have hf' : s'.first = c.lru.first + n := by
    unfold Lru.first
    rw [hr, hsq]; simp; omega
  obtain ⟨a, b, d⟩ := removeAll_spec (c.lru.ring.take n) c.groups hg
  have hres : ∃ s1, reserve (v.length + k.length) 1 c.lru = .ok (s1, c.lru.ring.take n) ∧ s1.store k v = .ok s' := by
    unfold insL at e
    cases h1 : reserve (v.length + k.length) 1 c.lru with
    | error x => simp [h1, bind, Except.bind] at e
    | ok r =>
      obtain ⟨s1, p⟩ := r
      simp only [h1, bind, Except.bind] at e
      cases h2 : s1.store k v with
      | error x => simp [h2] at e
      | ok s2 =>
        simp only [h2, pure, Except.pure, Except.ok.injEq, Prod.mk.injEq] at e
        obtain ⟨rfl, rfl⟩ := e
        exact ⟨s1, rfl, h2⟩
  obtain ⟨s1, h1, h2⟩ := hres
  have hidx : Delta2.pyIndex s'.ring (-1) = .ok ⟨k, v, c.lru.seqNum⟩ := by
    rw [hr]
    simp only [Delta2.pyIndex]
    rw [if_pos (show (-1 : Int) < 0 by omega), if_neg (by simp only [List.length_append, List.length_singleton]; omega)]
    have : ((-1 : Int) + ↑(c.lru.ring.drop n ++ [(⟨k, v, c.lru.seqNum⟩ : Entry)]).length).toNat = (c.lru.ring.drop n).length := by
      simp
    rw [this]
    simp
  have hal : ∀ i x, InG c.groups x i → ((∀ e ∈ c.lru.ring.take n, e.seq ≠ i) ↔ Alive s' i) := by
    intro i x hi
    rw [seq_popped hl hn]
    unfold Alive
    rw [hf']
    have := hv x i hi
    have hfi : 65 ≤ c.lru.first := by unfold Lru.first; omega
    omega
  refine ⟨{ c with lru := s', groups := (c.lru.ring.take n).foldl removeVIdx c.groups }, ?_, rfl, ?_, hs', a, ?_, hsq, ?_, ?_, ?_, ?_⟩
  · simp only [insertVal, h1, h2, hidx, bind, Except.bind, pure, Except.pure]
  · simp [afterL, e]
  · intro x i hi
    simp only at hi ⊢
    rw [b] at hi
    have h1 := hv x i hi.1
    have h2 := (hal i x hi.1).mp hi.2
    rw [hsq]
    unfold Alive at h2
    omega
  · simp only; omega
  · simp only; rw [hf']; unfold Lru.first; omega
  · intro x i
    simp only
    rw [b]
    constructor
    · rintro ⟨p, q⟩; exact ⟨p, (hal i x p).mp q⟩
    · rintro ⟨p, q⟩; exact ⟨p, (hal i x p).mpr q⟩
  · intro x i
    simp only
    rw [d]
    constructor
    · rintro ⟨p, q⟩; exact ⟨p, (hal i x p.inG).mp q⟩
    · rintro ⟨p, q⟩; exact ⟨p, (hal i x p.inG).mpr q⟩

theorem afterL_cons (h : Hdr) (t : List Hdr) {s : Lru} {s' : Lru} {p : List Entry} (e : insL s h.1 h.2 = .ok (s', p)) :
    afterL (h :: t) s = afterL t (afterL [h] s) := by
  obtain ⟨k, v⟩ := h
  simp only [afterL] at *
  rw [e]

/-- The storage after several headers. -/
theorem afterL_spec : ∀ (kvs : List Hdr) (s : Lru), LruOk s → (∀ h ∈ kvs, hsize h ≤ 16384) → s.seqNum + kvs.length ≤ 65536 →
    LruOk (afterL kvs s) ∧ (afterL kvs s).seqNum = s.seqNum + kvs.length ∧ s.first ≤ (afterL kvs s).first ∧
    (∀ i, (afterL kvs s).first ≤ i → i < s.seqNum → (afterL kvs s).at i = s.at i) ∧
    (∀ j (hj : j < kvs.length), (afterL kvs s).first ≤ s.seqNum + j →
      (afterL kvs s).at (s.seqNum + j) = some ⟨kvs[j].1, kvs[j].2, s.seqNum + j⟩) := by
  intro kvs
  induction kvs with
  | nil => intro s hs _ _; exact ⟨hs, rfl, Nat.le_refl _, by simp [afterL], by simp⟩
  | cons h t ih =>
    intro s hs hsz hq
    obtain ⟨k, v⟩ := h
    simp only [List.length_cons] at hq
    obtain ⟨n, hn, s', e, hs', hr, hsq, -⟩ := insL_spec hs k v (hsz (k, v) (by simp)) (by omega)
    have hlo := hs.lo
    have hf' : s'.first = s.first + n := by
      unfold Lru.first
      rw [hr, hsq]; simp; omega
    have hA : afterL ((k, v) :: t) s = afterL t s' := by simp [afterL, e]
    obtain ⟨a, b, c, d, f⟩ := ih s' hs' (fun x hx => hsz x (by simp [hx])) (by omega)
    rw [hA]
    have hfirst : s.first = s.seqNum - s.ring.length := rfl
    refine ⟨a, by simp; omega, by omega, ?_, ?_⟩
    · intro i h1 h2
      rw [d i h1 (by omega)]
      have h3 : s'.first ≤ i := by omega
      unfold Lru.at
      rw [if_pos h3, if_pos (by omega), hr, hf', List.getElem?_append_left (by simp; omega), List.getElem?_drop]
      congr 1
      omega
    · intro j hj h1
      cases j with
      | zero =>
        simp only [Nat.add_zero] at h1 ⊢
        rw [d _ h1 (by omega)]
        have h3 : s'.first ≤ s.seqNum := by omega
        unfold Lru.at
        rw [if_pos h3, hr, hf', List.getElem?_append_right (by simp; omega)]
        simp only [List.getElem_cons_zero, List.length_drop]
        rw [show s.seqNum - (s.first + n) - (s.ring.length - n) = 0 by omega]
        rfl
      | succ j =>
        have := f j (by simpa using hj) (by rw [hsq]; omega)
        rw [hsq] at this
        rw [show s.seqNum + (j + 1) = s.seqNum + 1 + j by omega]
        simpa using this

/-- Headers that fit together stay. -/
theorem afterL_fit : ∀ (kvs : List Hdr) (s : Lru) (q : Nat), LruOk s → s.seqNum + kvs.length ≤ 65536 → s.first ≤ q → q ≤ s.seqNum →
    sizeSum (s.ring.drop (q - s.first)) + (kvs.map hsize).sum ≤ 16384 → (s.ring.drop (q - s.first)).length + kvs.length ≤ 1024 →
    (afterL kvs s).first ≤ q := by
  intro kvs
  induction kvs with
  | nil => intro s q _ _ h _ _ _; exact h
  | cons h t ih =>
    intro s q hs hq h1 h2 h3 h4
    obtain ⟨k, v⟩ := h
    simp only [List.map_cons, List.sum_cons, hsize, List.length_cons] at h3 h4 hq
    obtain ⟨n, hn, s', e, hs', hr, hsq, hmin⟩ := insL_spec hs k v (by omega) (by omega)
    have hlo := hs.lo
    have hf' : s'.first = s.first + n := by
      unfold Lru.first
      rw [hr, hsq]; simp; omega
    have hA : afterL ((k, v) :: t) s = afterL t s' := by simp [afterL, e]
    have hnq : n ≤ q - s.first := by
      by_contra hc
      have := hmin (q - s.first) (by omega)
      omega
    have hd : s'.ring.drop (q - s'.first) = s.ring.drop (q - s.first) ++ [⟨k, v, s.seqNum⟩] := by
      have hfirst : s.first = s.seqNum - s.ring.length := rfl
      rw [hr, List.drop_append_of_le_length (by simp; omega), List.drop_drop]
      congr 2
      omega
    rw [hA]
    apply ih s' q hs' (by omega) (by omega) (by omega)
    · rw [hd]; simp [Entry.size]; omega
    · rw [hd]; simp at h4 ⊢; omega

/-- Storing headers for a group. -/
theorem storeEntries_spec (gid : Nat) : ∀ (kvs : List Hdr) (c : Codec), LruOk c.lru → GOk c.groups → Valid c →
    (∀ h ∈ kvs, hsize h ≤ 16384) → c.lru.seqNum + kvs.length ≤ 65536 →
    ∃ c', storeEntries gid kvs c = .ok c' ∧ c'.static = c.static ∧ c'.lru = afterL kvs c.lru ∧ GOk c'.groups ∧ Valid c' ∧
      (∀ x i, InG c'.groups x i ↔ (InG c.groups x i ∨ (x = gid ∧ c.lru.seqNum ≤ i ∧ i < c.lru.seqNum + kvs.length)) ∧ Alive c'.lru i) ∧
      (∀ x i, CurG c'.groups x i ↔ (CurG c.groups x i ∨ (x = gid ∧ c.lru.seqNum ≤ i ∧ i < c.lru.seqNum + kvs.length)) ∧ Alive c'.lru i) ∧
      ((∃ g, c.groups.get? gid = some g) → ∃ g, c'.groups.get? gid = some g) := by
  intro kvs
  induction kvs with
  | nil =>
    intro c hl hg hv _ _
    have hal : ∀ x i, InG c.groups x i → Alive c.lru i := by
      intro x i h
      have := hv x i h
      unfold Alive
      omega
    refine ⟨c, rfl, rfl, rfl, hg, hv, ?_, ?_, id⟩
    · intro x i
      constructor
      · intro h; exact ⟨Or.inl h, hal x i h⟩
      · rintro ⟨h | ⟨-, h⟩, -⟩
        · exact h
        · simp at h; omega
    · intro x i
      constructor
      · intro h; exact ⟨Or.inl h, hal x i h.inG⟩
      · rintro ⟨h | ⟨-, h⟩, -⟩
        · exact h
        · simp at h; omega
  | cons h t ih =>
    intro c hl hg hv hsz hq
    obtain ⟨k, v⟩ := h
    simp only [List.length_cons] at hq
    obtain ⟨c1, e1, s1, l1, ok1, g1, v1, q1, f1, f1', i1, u1⟩ := insertVal_spec (k := k) (v := v) hl hg hv (hsz (k, v) (by simp)) (by omega)
    obtain ⟨g2, s2, l2, i2, u2, x2⟩ := touch_spec g1 gid c.lru.seqNum
    have hlo := hl.lo
    have v2 : Valid (touch c1 gid c.lru.seqNum) := by
      intro x i hi
      rw [i2] at hi
      rw [l2]
      rcases hi with hi | ⟨-, rfl⟩
      · exact v1 x i hi
      · right; omega
    obtain ⟨c3, e3, s3, l3, g3, v3, i3, u3, x3⟩ := ih (touch c1 gid c.lru.seqNum) (by rw [l2]; exact ok1) g2 v2
      (fun x hx => hsz x (by simp [hx])) (by rw [l2]; omega)
    have hmono : c1.lru.first ≤ c3.lru.first := by
      rw [l3, l2]
      exact (afterL_spec t c1.lru ok1 (fun x hx => hsz x (by simp [hx])) (by omega)).2.2.1
    have hal : ∀ i, Alive c3.lru i → Alive c1.lru i := by
      intro i h; unfold Alive at *; omega
    have hA : afterL ((k, v) :: t) c.lru = afterL t c1.lru := by
      obtain ⟨n, -, s', e, -⟩ := insL_spec hl k v (hsz (k, v) (by simp)) (by omega)
      rw [l1]
      exact afterL_cons (k, v) t e
    have hsqa : Alive c1.lru c.lru.seqNum := Or.inr f1'
    refine ⟨c3, ?_, by rw [s3, s2, s1], by rw [l3, l2, hA], g3, v3, ?_, ?_, ?_⟩
    · simp only [storeEntries, storeEntry, e1, bind, Except.bind, pure, Except.pure]
      exact e3
    · intro x i
      rw [i3, i2, i1, l2, q1]
      simp only [List.length_cons]
      constructor
      · rintro ⟨((⟨h, h'⟩ | ⟨h, rfl⟩) | ⟨h, h'⟩), ha⟩
        · exact ⟨Or.inl h, ha⟩
        · exact ⟨Or.inr ⟨h, by omega, by omega⟩, ha⟩
        · exact ⟨Or.inr ⟨h, by omega, by omega⟩, ha⟩
      · rintro ⟨h | ⟨h, h1, h2⟩, ha⟩
        · exact ⟨Or.inl (Or.inl ⟨h, hal i ha⟩), ha⟩
        · by_cases he : i = c.lru.seqNum
          · exact ⟨Or.inl (Or.inr ⟨h, he⟩), ha⟩
          · exact ⟨Or.inr ⟨h, by omega, by omega⟩, ha⟩
    · intro x i
      rw [u3, u2, u1, l2, q1]
      simp only [List.length_cons]
      constructor
      · rintro ⟨((⟨h, h'⟩ | ⟨h, rfl⟩) | ⟨h, h'⟩), ha⟩
        · exact ⟨Or.inl h, ha⟩
        · exact ⟨Or.inr ⟨h, by omega, by omega⟩, ha⟩
        · exact ⟨Or.inr ⟨h, by omega, by omega⟩, ha⟩
      · rintro ⟨h | ⟨h, h1, h2⟩, ha⟩
        · exact ⟨Or.inl (Or.inl ⟨h, hal i ha⟩), ha⟩
        · by_cases he : i = c.lru.seqNum
          · exact ⟨Or.inl (Or.inr ⟨h, he⟩), ha⟩
          · exact ⟨Or.inr ⟨h, by omega, by omega⟩, ha⟩
    · intro _; exact x3 x2

/-- Storing copies. -/
theorem insertAll_spec : ∀ (es : List Entry) (c : Codec), LruOk c.lru → GOk c.groups → Valid c →
    (∀ e ∈ es, hsize (e.key, e.val) ≤ 16384) → c.lru.seqNum + es.length ≤ 65536 →
    ∃ c', insertAll es c = .ok c' ∧ c'.static = c.static ∧ c'.lru = afterL (es.map fun e => (e.key, e.val)) c.lru ∧
      GOk c'.groups ∧ Valid c' ∧
      (∀ x i, InG c'.groups x i ↔ InG c.groups x i ∧ Alive c'.lru i) ∧
      (∀ x i, CurG c'.groups x i ↔ CurG c.groups x i ∧ Alive c'.lru i) := by
  intro es
  induction es with
  | nil =>
    intro c hl hg hv _ _
    have hal : ∀ x i, InG c.groups x i → Alive c.lru i := by
      intro x i h
      have := hv x i h
      unfold Alive
      omega
    exact ⟨c, rfl, rfl, rfl, hg, hv, fun x i => ⟨fun h => ⟨h, hal x i h⟩, And.left⟩, fun x i => ⟨fun h => ⟨h, hal x i h.inG⟩, And.left⟩⟩
  | cons h t ih =>
    intro c hl hg hv hsz hq
    simp only [List.length_cons] at hq
    obtain ⟨c1, e1, s1, l1, ok1, g1, v1, q1, f1, f1', i1, u1⟩ := insertVal_spec hl hg hv (hsz h (by simp)) (by omega)
    obtain ⟨c3, e3, s3, l3, g3, v3, i3, u3⟩ := ih c1 ok1 g1 v1 (fun x hx => hsz x (by simp [hx])) (by omega)
    have hmono : c1.lru.first ≤ c3.lru.first := by
      rw [l3]
      exact (afterL_spec _ c1.lru ok1 (by simpa using fun x hx => hsz x (by simp [hx])) (by simp; omega)).2.2.1
    have hal : ∀ i, Alive c3.lru i → Alive c1.lru i := by
      intro i h; unfold Alive at *; omega
    have hA : afterL ((h.key, h.val) :: t.map fun e => (e.key, e.val)) c.lru = afterL (t.map fun e => (e.key, e.val)) c1.lru := by
      obtain ⟨n, -, s', e, -⟩ := insL_spec hl h.key h.val (hsz h (by simp)) (by omega)
      rw [l1]
      exact afterL_cons (h.key, h.val) _ e
    refine ⟨c3, ?_, by rw [s3, s1], by rw [l3, List.map_cons, hA], g3, v3, ?_, ?_⟩
    · simp only [insertAll, e1, bind, Except.bind]
      exact e3
    · intro x i
      rw [i3, i1]
      exact ⟨fun h => ⟨h.1.1, h.2⟩, fun h => ⟨⟨h.1, hal i h.2⟩, h.2⟩⟩
    · intro x i
      rw [u3, u1]
      exact ⟨fun h => ⟨h.1.1, h.2⟩, fun h => ⟨⟨h.1, hal i h.2⟩, h.2⟩⟩

end Verif.Delta2Bohe
