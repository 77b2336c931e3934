import Verif.Delta2Bohe.BodyLemmas
/- The sender and the receiver of delta2_bohe stay in step. -/
namespace Verif.Delta2Bohe
open Verif Verif.Huff

/-- The indices of a group in order. -/
def idxs (g : Group) : List Nat := sortBy (fun a b => decide (a ≤ b)) g.store.keys

theorem idxs_perm (g : Group) : (idxs g).Perm g.store.keys := Huff.sortBy_perm _ _

theorem idxs_eq {g g' : Group} (h : g.store.WF) (h' : g'.store.WF) (hm : ∀ i, i ∈ g.store.keys ↔ i ∈ g'.store.keys) : idxs g = idxs g' := by
  have hp : (idxs g).Perm (idxs g') := ((idxs_perm g).trans ((List.perm_ext_iff_of_nodup h h').mpr hm)).trans (idxs_perm g').symm
  have hs : ∀ g : Group, (idxs g).Pairwise fun a b => decide (a ≤ b) = true := fun g =>
    Huff.sortBy_sorted _ (by intro a b; simp; omega) (by intro a b c; simp; omega) _
  exact List.Perm.eq_of_pairwise (by intro a b _ _; simp; omega) (hs g) (hs g') hp

theorem adjust_spec {c : Codec} (h : CodecOk c) {gid : Nat} {g : Group} (hg : c.groups.get? gid = some g)
    (hq : c.lru.seqNum + g.store.keys.length ≤ 65536) :
    ∃ es c', lookupAll c (idxs g) = .ok es ∧ (es.map fun e => some (e.key, e.val)) = (idxs g).map (kvAt c) ∧ adjust c gid = .ok c' ∧
      CodecOk c' ∧ c'.lru = afterL (es.map fun e => (e.key, e.val)) c.lru ∧
      (∀ x i, InG c'.groups x i ↔ InG c.groups x i ∧ Alive c'.lru i) ∧
      (∀ x i, CurG c'.groups x i ↔ CurG c.groups x i ∧ Alive c'.lru i) ∧ es.length = g.store.keys.length := by
  obtain ⟨es, a, b, d⟩ := lookupAll_spec h (idxs g) (fun i hi => h.valid gid i ((inG_keys hg i).mpr ((idxs_perm g).mem_iff.mp hi)))
  have hlen : es.length = g.store.keys.length := by
    have := congrArg List.length b
    simpa [(idxs_perm g).length_eq] using this
  obtain ⟨c', e1, s1, l1, g1, v1, i1, u1⟩ := insertAll_spec es c h.lru h.groups h.valid d (by omega)
  refine ⟨es, c', a, b, ?_, ⟨s1.trans h.static, ?_, g1, v1⟩, l1, i1, u1, hlen⟩
  · have a' : lookupAll c (sortBy (fun a b => decide (a ≤ b)) g.store.keys) = .ok es := a
    simp only [adjust, theGroup, hg, a', bind, Except.bind]
    exact e1
  · rw [l1]
    exact (afterL_spec _ c.lru h.lru (by simpa using d) (by simp; omega)).1

/-- What the receiver does with the operations before it generates the headers. -/
theorem execOps_spec {c r c1 : Codec} {gid : Nat} {ps : List Hdr} {X V T : List Nat} {C : List (Nat × Str × Bool)}
    {K : List (Str × Str × Bool)} {A B : List Hdr} (h : CodecOk c) (hr : CodecOk r) (hl : r.lru = c.lru)
    (hin : ∀ x i, InG r.groups x i ↔ InG c.groups x i) (hsp : Split c gid ps X V C K A B) (hn : ps.Nodup)
    (hb : (ps.map hsize).sum ≤ 16384) (hq : c.lru.seqNum + ps.length ≤ 65536) (hcnt : ps.length ≤ 1024)
    (hl1 : c1.lru = afterL (A ++ B) c.lru) (hkept : ∀ i, i ∈ X ∨ i ∈ V → Alive c1.lru i) (hTn : T.Nodup)
    (hT : ∀ i, i ∈ T ↔ InG c.groups gid i ∧ i ∉ X ∧ Alive c1.lru i)
    (hin1 : ∀ i, InG c1.groups gid i ↔ i ∈ X ∨ i ∈ V ∨ (c.lru.seqNum ≤ i ∧ i < c.lru.seqNum + (A ++ B).length))
    (hin2 : ∀ x i, x ≠ gid → (InG c1.groups x i ↔ InG c.groups x i ∧ Alive c1.lru i)) :
    ∃ r1, execOps r (Instrs.ops ⟨V ++ T, C, K⟩) gid = .ok r1 ∧ CodecOk r1 ∧ r1.lru = c1.lru ∧
      (∀ x i, InG r1.groups x i ↔ InG c1.groups x i) ∧ ∃ g, r1.groups.get? gid = some g := by
  obtain ⟨ma, mb, md, me, mf, mg⟩ := findOrMake_spec hr.groups gid
  have hlru0 : (findOrMake r gid).lru = c.lru := md.trans hl
  have hst : (findOrMake r gid).static = c.static := mb.trans (hr.static.trans h.static.symm)
  have hm : CodecOk (findOrMake r gid) := ⟨mb.trans hr.static, by rw [md]; exact hr.lru, ma, by
    intro x i hi
    rw [md]
    exact hr.valid x i ((me x i).mp hi)⟩
  have hlen := hsp.len
  have hsum := hsp.sizes
  have hszAB : ∀ x ∈ A ++ B, hsize x ≤ 16384 := fun x hx => by have := le_sum_hsize hx; omega
  have tr : translate (findOrMake r gid) (C.map fun x => (x.1, x.2.1)) = .ok A := by
    rw [translate_congr hst hlru0]; exact hsp.clones
  obtain ⟨c2, e2, s2, l2, g2, v2, i2, -, x2⟩ := storeEntries_spec gid A (findOrMake r gid) (by rw [hlru0]; exact h.lru) ma hm.valid
    (fun x hx => hszAB x (by simp [hx])) (by rw [hlru0]; omega)
  obtain ⟨a3, b3, d3, -, -⟩ := afterL_spec A c.lru h.lru (fun x hx => hszAB x (by simp [hx])) (by omega)
  rw [hlru0] at l2 i2
  have hApp := afterL_append A B c.lru h.lru (fun x hx => hszAB x (by simp [hx])) (by omega)
  obtain ⟨a4, b4, d4, -, -⟩ := afterL_spec B (afterL A c.lru) a3 (fun x hx => hszAB x (by simp [hx])) (by omega)
  rw [← hApp] at a4 b4 d4
  rw [hl1] at hkept hT hin2
  have hVT : ∀ i, i ∈ V → i ∉ T := fun i hv ht => (hsp.vOut i hv).1 ((hT i).mp ht).1
  obtain ⟨hXn, hVn⟩ := hsp.nodup hn
  have hVTn : (V ++ T).Nodup := List.nodup_append.mpr ⟨hVn, hTn, by
    intro a ha b hb hab; subst hab; exact hVT a ha hb⟩
  have hperm : (Delta1.toggleRanges (V ++ T)).all.Perm (V ++ T) := (Delta1.toggleRanges_spec (V ++ T)).1
  obtain ⟨c5, e5, g5, s5, l5, i5, -, x5⟩ := toggleAll_spec gid (Delta1.toggleRanges (V ++ T)).all c2 g2 (hperm.nodup_iff.mpr hVTn) (x2 mg)
  have hlo := h.lru.lo
  have hal : ∀ i, Alive (afterL (A ++ B) c.lru) i → Alive (afterL A c.lru) i := by
    intro i hi; unfold Alive at *; omega
  have hTal : ∀ i, i ∈ T → InG c2.groups gid i := by
    intro i hi
    rw [i2]
    have := (hT i).mp hi
    rw [l2]
    exact ⟨Or.inl ((me _ _).mpr ((hin _ _).mpr this.1)), hal i this.2.2⟩
  have hVal : ∀ i, i ∈ V → ¬ InG c2.groups gid i := by
    intro i hi hc
    rw [i2] at hc
    rcases hc.1 with p | p
    · exact (hsp.vOut i hi).1 ((hin _ _).mp ((me _ _).mp p))
    · have := (hsp.vOut i hi).2
      unfold Usable at this
      omega
  have hin5 : ∀ i, InG c5.groups gid i ↔ i ∈ V ∨ (InG c2.groups gid i ∧ i ∉ T) := by
    intro i
    rw [i5]
    simp only [hperm.mem_iff, List.mem_append, true_and]
    by_cases hv : i ∈ V
    · simp [hv, hVal i hv]
    · by_cases ht : i ∈ T
      · simp [ht, hv, hTal i ht]
      · simp [hv, ht]
  have hlru5 : c5.lru = afterL A c.lru := l5.trans l2
  have v5 : Valid c5 := by
    intro x i hi
    rw [hlru5]
    by_cases hx : x = gid
    · subst hx
      rw [hin5] at hi
      rcases hi with hi | hi
      · have h1 := (hsp.vOut i hi).2
        have h2 := hal i (hkept i (Or.inr hi))
        unfold Usable at h1
        unfold Alive at h2
        omega
      · have := v2 x i hi.1
        rw [l2] at this
        exact this
    · rw [i5, if_neg (fun hh => hx hh.1)] at hi
      have := v2 x i hi
      rw [l2] at this
      exact this
  obtain ⟨c6, e6, s6, l6, g6, v6, i6, -, x6⟩ := storeEntries_spec gid B c5 (by rw [hlru5]; exact a3) g5 v5
    (fun x hx => hszAB x (by simp [hx])) (by rw [hlru5]; omega)
  rw [hlru5] at l6 i6
  have hlru6 : c6.lru = afterL (A ++ B) c.lru := l6.trans hApp.symm
  refine ⟨c6, ?_, ⟨?_, by rw [hlru6]; exact a4, g6, v6⟩, by rw [hlru6, hl1], ?_, x6 x5⟩
  · have hcl := ops_clones ⟨V ++ T, C, K⟩
    have hlp := execLoop_ops gid ⟨V ++ T, C, K⟩ c2
    rw [hsp.kvs, e5] at hlp
    simp only [execOps, hcl, tr, bind, Except.bind, e2]
    rw [hlp]
    exact e6
  · rw [s6, s5, s2, hst, h.static]
  · intro x i
    rw [i6, hlru6]
    simp only [List.length_append] at hin1
    have hnew : (afterL (A ++ B) c.lru).first ≤ c.lru.seqNum := by
      have hd : c.lru.ring.drop (c.lru.seqNum - c.lru.first) = [] := by
        apply List.drop_eq_nil_of_le
        unfold Lru.first; omega
      apply afterL_fit (A ++ B) c.lru c.lru.seqNum h.lru (by simp; omega) first_le (Nat.le_refl _)
      · rw [hd]; simp at hsum ⊢; omega
      · rw [hd]; simp; omega
    by_cases hx : x = gid
    · subst hx
      rw [hin5, hin1, i2, me, hin, l2]
      constructor
      · rintro ⟨(p | ⟨⟨p | p, p'⟩, p''⟩) | p, q⟩
        · exact Or.inr (Or.inl p)
        · left
          by_contra hc
          exact p'' ((hT i).mpr ⟨p, hc, q⟩)
        · right; right; omega
        · right; right; omega
      · rintro (p | p | p)
        · have ha := hkept i (Or.inl p)
          refine ⟨Or.inl (Or.inr ⟨⟨Or.inl (hsp.xIn i p), hal i ha⟩, ?_⟩), ha⟩
          intro hc
          exact ((hT i).mp hc).2.1 p
        · exact ⟨Or.inl (Or.inl p), hkept i (Or.inr p)⟩
        · have ha : Alive (afterL (A ++ B) c.lru) i := Or.inr (by omega)
          by_cases hi : i < c.lru.seqNum + A.length
          · refine ⟨Or.inl (Or.inr ⟨⟨Or.inr ⟨rfl, p.1, hi⟩, hal i ha⟩, ?_⟩), ha⟩
            intro hc
            have := h.valid _ i ((hT i).mp hc).1
            omega
          · exact ⟨Or.inr ⟨rfl, by omega, by omega⟩, ha⟩
    · rw [i5, if_neg (fun hh => hx hh.1), i2, me, hin, hin2 x i hx, l2]
      constructor
      · rintro ⟨p | p, q⟩
        · rcases p.1 with p | p
          · exact ⟨p, q⟩
          · exact absurd p.1 hx
        · exact absurd p.1 hx
      · rintro ⟨p, q⟩
        exact ⟨Or.inl ⟨Or.inl p, hal i q⟩, q⟩

/-- The headers that the group stands for after the operations. -/
theorem content_spec {c c1 : Codec} {gid : Nat} {ps : List Hdr} {X V : List Nat} {C : List (Nat × Str × Bool)}
    {K : List (Str × Str × Bool)} {A B : List Hdr} (h : CodecOk c) (hsp : Split c gid ps X V C K A B) (hn : ps.Nodup)
    (hb : (ps.map hsize).sum ≤ 16384) (hq : c.lru.seqNum + ps.length ≤ 65536) (hcnt : ps.length ≤ 1024)
    (hl1 : c1.lru = afterL (A ++ B) c.lru) (hkept : ∀ i, i ∈ X ∨ i ∈ V → Alive c1.lru i)
    {is : List Nat} (hisn : is.Nodup)
    (his : ∀ i, i ∈ is ↔ i ∈ X ∨ i ∈ V ∨ (c.lru.seqNum ≤ i ∧ i < c.lru.seqNum + (A ++ B).length)) :
    (is.map (kvAt c1)).Perm (ps.map some) := by
  obtain ⟨Xh, Vh, hXh, hVh, hp⟩ := hsp.perm
  have hlen := hsp.len
  have hsum := hsp.sizes
  have hlo := h.lru.lo
  have hszAB : ∀ x ∈ A ++ B, hsize x ≤ 16384 := fun x hx => by have := le_sum_hsize hx; omega
  obtain ⟨a3, b3, d3, f3, g3⟩ := afterL_spec (A ++ B) c.lru h.lru hszAB (by simp; omega)
  have hnew : (afterL (A ++ B) c.lru).first ≤ c.lru.seqNum := by
    have hd : c.lru.ring.drop (c.lru.seqNum - c.lru.first) = [] := by
      apply List.drop_eq_nil_of_le
      unfold Lru.first; omega
    apply afterL_fit (A ++ B) c.lru c.lru.seqNum h.lru (by simp; omega) first_le (Nat.le_refl _)
    · rw [hd]; simp at hsum ⊢; omega
    · rw [hd]; simp; omega
  obtain ⟨hXn, hVn⟩ := hsp.nodup hn
  rw [hl1] at hkept
  have hus : ∀ i, i ∈ X ∨ i ∈ V → Usable c i := by
    rintro i (hi | hi)
    · exact h.valid gid i (hsp.xIn i hi)
    · exact (hsp.vOut i hi).2
  have hsame : ∀ i, i ∈ X ∨ i ∈ V → kvAt c1 i = kvAt c i := by
    intro i hi
    have h1 := hus i hi
    have h2 := hkept i hi
    unfold Usable at h1
    unfold Alive at h2
    have hff : 65 ≤ (afterL (A ++ B) c.lru).first := by unfold Lru.first at d3 ⊢; omega
    unfold kvAt
    split
    · rfl
    · rw [hl1, f3 i (by omega) (by omega)]
  have hnewkv : ∀ j (hj : j < (A ++ B).length), kvAt c1 (c.lru.seqNum + j) = some (A ++ B)[j] := by
    intro j hj
    unfold kvAt
    rw [if_neg (by omega), hl1, g3 j hj (by omega)]
    rfl
  have hN : (List.range (A ++ B).length).map (fun j => kvAt c1 (c.lru.seqNum + j)) = (A ++ B).map some := by
    apply List.ext_getElem
    · simp
    · intro j h1 h2
      have hj : j < (A ++ B).length := by simpa using h1
      rw [List.getElem_map, List.getElem_range, List.getElem_map]
      exact hnewkv j hj
  have hmem : is.Perm (X ++ V ++ (List.range (A ++ B).length).map (c.lru.seqNum + ·)) := by
    refine (List.perm_ext_iff_of_nodup hisn ?_).mpr ?_
    · refine List.nodup_append.mpr ⟨List.nodup_append.mpr ⟨hXn, hVn, ?_⟩, List.nodup_range.map (fun a b hab => by
        simpa using hab), ?_⟩
      · intro a ha b hb hab
        subst hab
        exact (hsp.vOut a hb).1 (hsp.xIn a ha)
      · intro a ha b hb hab
        subst hab
        have := hus a (List.mem_append.mp ha)
        obtain ⟨j, -, rfl⟩ := List.mem_map.mp hb
        unfold Usable at this
        omega
    · intro i
      rw [his]
      simp only [List.mem_append, List.mem_map, List.mem_range, or_assoc]
      refine or_congr Iff.rfl (or_congr Iff.rfl ?_)
      constructor
      · intro p; exact ⟨i - c.lru.seqNum, by omega, by omega⟩
      · rintro ⟨j, p, rfl⟩; omega
  refine (hmem.map (kvAt c1)).trans ?_
  rw [List.map_append, List.map_append, List.map_congr_left (fun i hi => hsame i (Or.inl hi)),
    List.map_congr_left (l := V) (fun i hi => hsame i (Or.inr hi)), hXh, hVh, List.map_map]
  have : (kvAt c1 ∘ fun x => c.lru.seqNum + x) = fun j => kvAt c1 (c.lru.seqNum + j) := rfl
  rw [this, hN, ← List.map_append, ← List.map_append]
  refine (List.Perm.map _ ?_)
  simpa [List.append_assoc] using hp.symm

/-- The sender and the receiver hold the same. -/
structure Same (c r : Codec) : Prop where
  sender : CodecOk c
  past : Past c.groups
  receiver : CodecOk r
  lru : r.lru = c.lru
  groups : ∀ x i, InG r.groups x i ↔ InG c.groups x i

/-- What is asked of a message: it is encoded as different pieces that fit into the storage, the numbers do not wrap, and nothing
it refers to is removed when its new pieces are stored. -/
structure Fits (enc : Str → Str → Py Str) (o : Orders) (c : Codec) (hs : List Hdr) (gid : Nat) (ps : List Hdr) : Prop where
  has : ∀ l, (o.has l).Perm l
  old : ∀ l, (o.old l).Perm l
  pieces : pieces enc hs = .ok ps
  nodup : ps.Nodup
  bytes : (ps.map hsize).sum ≤ 16384
  count : ps.length ≤ 1024
  room : c.lru.seqNum + 2 * ps.length ≤ 65536
  kept : ∀ c1 g, makeBody enc o c hs gid = .ok (c1, g) → ∀ i,
    (InG c.groups gid i ∧ ∃ p ∈ ps, kvAt c i = some p) ∨ i ∈ g.toggl → Alive c1.lru i

/-- What a message does to the sender's state and what is sent. -/
structure Effect (c c2 : Codec) (g : Instrs) (gid : Nat) (ps es : List Hdr) : Prop where
  lru : ∃ AB : List Hdr, c2.lru = afterL es (afterL AB c.lru) ∧ (AB.map hsize).sum ≤ (ps.map hsize).sum ∧ AB.length ≤ ps.length
  toggl : ∀ i ∈ g.toggl, i < 65536
  clone : ∀ x ∈ g.clone, x.1 < 65536 ∧ ∃ k, (k, x.2.1) ∈ ps
  kvsto : ∀ x ∈ g.kvsto, (x.1, x.2.1) ∈ ps
  toggles : ∀ grp, c.groups.get? gid = some grp → g.toggl.length ≤ ps.length + grp.store.keys.length
  first : c.groups.get? gid = none → g.toggl.length ≤ ps.length
  stored : g.clone.length + g.kvsto.length ≤ ps.length
  group : ∀ grp, c2.groups.get? gid = some grp → grp.store.keys.length ≤ ps.length
  others : ∀ x i, x ≠ gid → InG c2.groups x i → InG c.groups x i

theorem nodup_length_le {l m : List Nat} (h : l.Nodup) (hs : ∀ i ∈ l, i ∈ m) : l.length ≤ m.length :=
  (List.subperm_of_subset h hs).length_le

theorem translate_mem {c : Codec} : ∀ {ops : List (Nat × Str)} {A : List Hdr}, translate c ops = .ok A → A.length = ops.length ∧
    ∀ x ∈ ops, ∃ k, (k, x.2) ∈ A := by
  intro ops
  induction ops with
  | nil => intro A h; cases h; simp
  | cons op ops ih =>
    obtain ⟨k, v⟩ := op
    intro A h
    simp only [translate, bind, Except.bind] at h
    split at h
    · cases h
    split at h
    · cases h
    rename_i e _ _ rest hrest
    cases h
    obtain ⟨h1, h2⟩ := ih hrest
    refine ⟨by simp [h1], ?_⟩
    intro x hx
    rcases List.mem_cons.mp hx with rfl | hx
    · exact ⟨e.key, by simp⟩
    · obtain ⟨k, hk⟩ := h2 x hx
      exact ⟨k, by simp [hk]⟩

/-- A message keeps the two sides in step, and the receiver generates its pieces. -/
theorem step_spec {enc : Str → Str → Py Str} {o : Orders} {c r : Codec} {gid : Nat} {hs ps : List Hdr} (hcr : Same c r)
    (hf : Fits enc o c hs gid ps) :
    ∃ c2 g r2 es, makeOperations enc o c hs gid = .ok (c2, g) ∧ receive r g gid = .ok (r2, fixCookie (collect es [])) ∧ Same c2 r2 ∧
      (es.map fun e => (e.key, e.val)).Perm ps ∧ c2.lru.seqNum ≤ c.lru.seqNum + 2 * ps.length ∧
      Effect c c2 g gid ps (es.map fun e => (e.key, e.val)) := by
  have hroom := hf.room
  obtain ⟨c1, X, V, T, C, K, A, B, e1, hsp, hl1, hrest⟩ := makeBody_spec hf.has hf.old hcr.sender hcr.past hf.pieces hf.nodup hf.bytes (by omega)
  have hkept : ∀ i, i ∈ X ∨ i ∈ V → Alive c1.lru i := by
    rintro i (hi | hi)
    · refine hf.kept c1 _ e1 i (Or.inl ⟨hsp.xIn i hi, ?_⟩)
      obtain ⟨Xh, Vh, hXh, -, hp⟩ := hsp.perm
      have : kvAt c i ∈ X.map (kvAt c) := List.mem_map_of_mem hi
      rw [hXh] at this
      obtain ⟨p, hp1, hp2⟩ := List.mem_map.mp this
      exact ⟨p, hp.mem_iff.mpr (by simp [hp1]), hp2.symm⟩
    · exact hf.kept c1 _ e1 i (Or.inr (by simp [hi]))
  obtain ⟨ok1, past1, ⟨g1, hg1⟩, hTn, hT, hin1, hin2⟩ := hrest hkept hf.count
  obtain ⟨r1, e2, okr, lr, inr, ⟨g2, hg2⟩⟩ := execOps_spec hcr.sender hcr.receiver hcr.lru hcr.groups hsp hf.nodup hf.bytes (by omega)
    hf.count hl1 hkept hTn hT hin1 hin2
  have hidx : idxs g2 = idxs g1 := by
    apply idxs_eq (okr.groups.stores gid g2 hg2) (ok1.groups.stores gid g1 hg1)
    intro i
    rw [← inG_keys hg2, ← inG_keys hg1, inr]
  have hisn : (idxs g1).Nodup := (idxs_perm g1).nodup_iff.mpr (ok1.groups.stores gid g1 hg1)
  have hcont := content_spec (is := idxs g1) hcr.sender hsp hf.nodup hf.bytes (by omega) hf.count hl1 hkept hisn (by
    intro i
    rw [(idxs_perm g1).mem_iff, ← inG_keys hg1]
    exact hin1 i)
  have hklen : g1.store.keys.length = ps.length := by
    have := hcont.length_eq
    simpa [(idxs_perm g1).length_eq] using this
  have hlen := hsp.len
  have hsum := hsp.sizes
  have hszAB : ∀ x ∈ A ++ B, hsize x ≤ 16384 := fun x hx => by
    have := le_sum_hsize hx
    have := hf.bytes
    omega
  have hsq := (afterL_spec (A ++ B) c.lru hcr.sender.lru hszAB (by simp; omega)).2.1
  rw [← hl1] at hsq
  simp only [List.length_append] at hsq
  obtain ⟨es, c2, lk, kv, ad, ok2, l2, i2, u2, esl⟩ := adjust_spec ok1 hg1 (by omega)
  have hk2 : g2.store.keys.length = ps.length := by
    have h1 := (idxs_perm g2).length_eq
    have h2 := (idxs_perm g1).length_eq
    rw [hidx] at h1
    omega
  obtain ⟨es', r2, lk', kv', ad', ok2', l2', i2', u2', -⟩ := adjust_spec okr hg2 (by rw [lr]; omega)
  have hes : es' = es := by
    rw [hidx, lookupAll_congr (okr.static.trans ok1.static.symm) lr, lk] at lk'
    exact (Except.ok.inj lk').symm
  subst hes
  have hlru : r2.lru = c2.lru := by rw [l2', l2, lr]
  have hsz : ∀ x ∈ es'.map fun e => (e.key, e.val), hsize x ≤ 16384 := by
    intro x hx
    have hp : (es'.map fun e => (e.key, e.val)).Perm ps := by
      rw [← kv] at hcont
      have : (es'.map fun e => (some (e.key, e.val) : Option Hdr)) = (es'.map fun e => (e.key, e.val)).map some := by simp
      rw [this] at hcont
      exact (List.map_perm_map_iff (Option.some_injective _)).mp hcont
    have := le_sum_hsize (hp.mem_iff.mp hx)
    have := hf.bytes
    omega
  refine ⟨c2, ⟨V ++ T, C, K⟩, r2, es', ?_, ?_, ⟨ok2, ?_, ok2', hlru, ?_⟩, ?_, ?_, ?_⟩
  · simp only [makeOperations, e1, bind, Except.bind, ad, pure, Except.pure]
  · have lk'' : lookupAll r1 (sortBy (fun a b => decide (a ≤ b)) g2.store.keys) = .ok es' := lk'
    simp only [receive, e2, generate, theGroup, hg2, lk'', bind, Except.bind, ad', pure, Except.pure]
  · intro x i hc
    exact past1 x i ((u2 x i).mp hc).1
  · intro x i
    rw [i2, i2', inr, hlru]
  · rw [← kv] at hcont
    have : (es'.map fun e => (some (e.key, e.val) : Option Hdr)) = (es'.map fun e => (e.key, e.val)).map some := by simp
    rw [this] at hcont
    exact (List.map_perm_map_iff (Option.some_injective _)).mp hcont
  · have := (afterL_spec (es'.map fun e => (e.key, e.val)) c1.lru ok1.lru hsz (by simp; omega)).2.1
    rw [l2, this]
    simp
    omega
  · have hTlen : ∀ grp, c.groups.get? gid = some grp → T.length ≤ grp.store.keys.length := fun grp hgrp =>
      nodup_length_le hTn fun i hi => (inG_keys hgrp i).mp ((hT i).mp hi).1
    obtain ⟨hAlen, hAmem⟩ := translate_mem hsp.clones
    have hBlen : B.length = K.length := by rw [← hsp.kvs]; simp
    obtain ⟨Xh, Vh, hXh, hVh, hp⟩ := hsp.perm
    have hlt : ∀ i, Usable c i → i < 65536 := by
      intro i hi
      have := hcr.sender.lru.hi
      unfold Usable at hi
      omega
    refine ⟨⟨A ++ B, by rw [l2, hl1], hsum, by simp; omega⟩, ?_, ?_, ?_, ?_, ?_, ?_, ?_, ?_⟩
    · intro i hi
      rcases List.mem_append.mp hi with hi | hi
      · exact hlt i (hsp.vOut i hi).2
      · exact hlt i (hcr.sender.valid gid i ((hT i).mp hi).1)
    · intro x hx
      refine ⟨hlt _ (hsp.keys x hx), ?_⟩
      obtain ⟨k, hk⟩ := hAmem (x.1, x.2.1) (List.mem_map.mpr ⟨x, hx, rfl⟩)
      exact ⟨k, hp.mem_iff.mpr (by simp [hk])⟩
    · intro x hx
      refine hp.mem_iff.mpr ?_
      have : (x.1, x.2.1) ∈ B := by rw [← hsp.kvs]; exact List.mem_map.mpr ⟨x, hx, rfl⟩
      simp [this]
    · intro grp hgrp
      have := hTlen grp hgrp
      simp
      omega
    · intro hnone
      have : T = [] := by
        rw [List.eq_nil_iff_forall_not_mem]
        intro i hi
        obtain ⟨grp, n, h1, -⟩ := ((hT i).mp hi).1
        rw [hnone] at h1
        cases h1
      simp [this]
      omega
    · simp at hAlen
      simp
      omega
    · intro grp hgrp
      rw [← hklen]
      refine nodup_length_le (ok2.groups.stores gid grp hgrp) fun i hi => ?_
      exact (inG_keys hg1 i).mp ((i2 gid i).mp ((inG_keys hgrp i).mpr hi)).1
    · intro x i hx hi
      exact ((hin2 x i hx).mp ((i2 x i).mp hi).1).1

end Verif.Delta2Bohe
