import Verif.Delta2Bohe.StepLemmas
/- The sender's and the receiver's work for a message in delta2_bohe. -/
namespace Verif.Delta2Bohe
open Verif

theorem unsome {α : Type} {f : Nat → Option α} : ∀ {l : List Nat}, (∀ i ∈ l, ∃ x, f i = some x) → ∃ xs : List α, l.map f = xs.map some := by
  intro l
  induction l with
  | nil => intro _; exact ⟨[], rfl⟩
  | cons i l ih =>
    intro h
    obtain ⟨x, hx⟩ := h i (by simp)
    obtain ⟨xs, hxs⟩ := ih (fun j hj => h j (by simp [hj]))
    exact ⟨x :: xs, by simp [hx, hxs]⟩

theorem Usable.kv {c : Codec} (h : CodecOk c) {i : Nat} (hi : Usable c i) : ∃ x, kvAt c i = some x := by
  obtain ⟨e, -, a, -⟩ := lookupFromIdx_spec h hi
  exact ⟨_, a⟩

/-- What a message becomes: indices of the group that are touched (`X`), indices that are toggled on (`V`), the headers that are
stored because of clones (`A`) and others (`B`). -/
structure Split (c : Codec) (gid : Nat) (ps : List Hdr) (X V : List Nat) (C : List (Nat × Str × Bool)) (K : List (Str × Str × Bool))
    (A B : List Hdr) : Prop where
  xIn : ∀ i ∈ X, InG c.groups gid i
  vOut : ∀ i ∈ V, ¬ InG c.groups gid i ∧ Usable c i
  keys : ∀ x ∈ C, Usable c x.1
  clones : translate c (C.map fun x => (x.1, x.2.1)) = .ok A
  kvs : (K.map fun x => (x.1, x.2.1)) = B
  perm : ∃ Xh Vh, X.map (kvAt c) = Xh.map some ∧ V.map (kvAt c) = Vh.map some ∧ ps.Perm (Xh ++ Vh ++ A ++ B)

theorem Split.len {c : Codec} {gid : Nat} {ps : List Hdr} {X V : List Nat} {C : List (Nat × Str × Bool)}
    {K : List (Str × Str × Bool)} {A B : List Hdr} (h : Split c gid ps X V C K A B) :
    X.length + V.length + A.length + B.length = ps.length := by
  obtain ⟨Xh, Vh, a, b, p⟩ := h.perm
  have h1 : X.length = Xh.length := by simpa using congrArg List.length a
  have h2 : V.length = Vh.length := by simpa using congrArg List.length b
  have := p.length_eq
  simp at this
  omega

theorem Split.sizes {c : Codec} {gid : Nat} {ps : List Hdr} {X V : List Nat} {C : List (Nat × Str × Bool)}
    {K : List (Str × Str × Bool)} {A B : List Hdr} (h : Split c gid ps X V C K A B) :
    ((A ++ B).map hsize).sum ≤ (ps.map hsize).sum := by
  obtain ⟨Xh, Vh, a, b, p⟩ := h.perm
  have := (p.map hsize).sum_eq
  simp at this ⊢
  omega

theorem le_sum_hsize {l : List Hdr} {x : Hdr} (h : x ∈ l) : hsize x ≤ (l.map hsize).sum :=
  List.single_le_sum (by simp) _ (List.mem_map_of_mem h)

theorem Split.nodup {c : Codec} {gid : Nat} {ps : List Hdr} {X V : List Nat} {C : List (Nat × Str × Bool)}
    {K : List (Str × Str × Bool)} {A B : List Hdr} (h : Split c gid ps X V C K A B) (hn : ps.Nodup) : X.Nodup ∧ V.Nodup := by
  obtain ⟨Xh, Vh, a, b, p⟩ := h.perm
  have h1 := p.nodup_iff.mp hn
  have h2 : (Xh ++ Vh).Nodup := by
    rw [List.append_assoc] at h1
    exact (List.nodup_append.mp h1).1
  have h3 := (List.nodup_append.mp h2).1
  have h4 := (List.nodup_append.mp h2).2.1
  constructor
  · apply List.Nodup.of_map (kvAt c)
    rw [a]
    exact h3.map (Option.some_injective _)
  · apply List.Nodup.of_map (kvAt c)
    rw [b]
    exact h4.map (Option.some_injective _)

/-- What the sender does before the adjustment. -/
theorem makeBody_spec {enc : Str → Str → Py Str} {o : Orders} (ho : ∀ l, (o.has l).Perm l) (ho' : ∀ l, (o.old l).Perm l) {c : Codec}
    {gid : Nat} {hs ps : List Hdr} (h : CodecOk c) (hp : Past c.groups) (hps : pieces enc hs = .ok ps) (hn : ps.Nodup)
    (hb : (ps.map hsize).sum ≤ 16384) (hq : c.lru.seqNum + ps.length ≤ 65536) :
    ∃ c1 X V T C K A B, makeBody enc o c hs gid = .ok (c1, ⟨V ++ T, C, K⟩) ∧ Split c gid ps X V C K A B ∧
      c1.lru = afterL (A ++ B) c.lru ∧
      ((∀ i, i ∈ X ∨ i ∈ V → Alive c1.lru i) → ps.length ≤ 1024 →
        CodecOk c1 ∧ Past c1.groups ∧ (∃ g, c1.groups.get? gid = some g) ∧ T.Nodup ∧
        (∀ i, i ∈ T ↔ InG c.groups gid i ∧ i ∉ X ∧ Alive c1.lru i) ∧
        (∀ i, InG c1.groups gid i ↔ i ∈ X ∨ i ∈ V ∨ (c.lru.seqNum ≤ i ∧ i < c.lru.seqNum + (A ++ B).length)) ∧
        (∀ x i, x ≠ gid → (InG c1.groups x i ↔ InG c.groups x i ∧ Alive c1.lru i))) := by
  obtain ⟨ma, mb, md, me, mf, mg⟩ := findOrMake_spec h.groups gid
  have hm : CodecOk (findOrMake c gid) := ⟨mb.trans h.static, by rw [md]; exact h.lru, ma, by
    intro x i hi
    rw [md]
    exact h.valid x i ((me x i).mp hi)⟩
  obtain ⟨c0, X, V, C, K, e1, l1, ok1, i1, u1, g1, xin, vout, cu, perm⟩ := procAll_spec ho gid ps (findOrMake c gid) {} hm mg
  have hkv : kvAt (findOrMake c gid) = kvAt c := funext (kvAt_congr md)
  have hcl : cloneHdr (findOrMake c gid) = cloneHdr c := by funext x; simp [cloneHdr, hkv]
  rw [hkv, hcl] at perm
  have hus : ∀ i, Usable (findOrMake c gid) i ↔ Usable c i := by intro i; unfold Usable; rw [md]
  obtain ⟨A, tr, trm⟩ := translate_spec h C (fun x hx => (hus _).mp (cu x hx))
  obtain ⟨Xh, hXh⟩ := unsome (f := kvAt c) (l := X) (fun i hi => Usable.kv h (h.valid gid i ((me _ _).mp (xin i hi))))
  obtain ⟨Vh, hVh⟩ := unsome (f := kvAt c) (l := V) (fun i hi => ((hus i).mp (vout i hi).2).kv h)
  have hsp : Split c gid ps X V C K A (K.map fun x => (x.1, x.2.1)) := by
    refine ⟨fun i hi => (me _ _).mp (xin i hi), fun i hi => ⟨fun hc => (vout i hi).1 ((me _ _).mpr hc), (hus i).mp (vout i hi).2⟩,
      fun x hx => (hus _).mp (cu x hx), tr, rfl, Xh, Vh, hXh, hVh, ?_⟩
    rw [hXh, hVh, ← trm, show (K.map fun x => (some (x.1, x.2.1) : Option Hdr)) = (K.map fun x => (x.1, x.2.1)).map some by simp,
      ← List.map_append, ← List.map_append, ← List.map_append] at perm
    exact (List.map_perm_map_iff (Option.some_injective _)).mp perm
  obtain ⟨B, hB⟩ : ∃ B, (K.map fun x => (x.1, x.2.1)) = B := ⟨_, rfl⟩
  rw [hB] at hsp
  obtain ⟨hXn, hVn⟩ := hsp.nodup hn
  have hlen := hsp.len
  have hsum := hsp.sizes
  have hszAB : ∀ x ∈ A ++ B, hsize x ≤ 16384 := fun x hx => by have := le_sum_hsize hx; omega
  obtain ⟨c2, e2, g2, s2, l2, i2, u2, x2⟩ := toggleAll_spec gid V c0 ok1.groups hVn g1
  have hlru2 : c2.lru = c.lru := l2.trans (l1.trans md)
  have hst2 : c2.static = c.static := s2.trans (ok1.static.trans h.static.symm)
  have hv2 : Valid c2 := by
    intro x i hi
    rw [hlru2]
    rw [i2] at hi
    split at hi
    · rename_i hxi
      exact (hus i).mp (vout i hxi.2).2
    · exact h.valid x i ((me _ _).mp ((i1 _ _).mp hi))
  obtain ⟨c3, e3, s3, l3, g3, v3, i3, u3, x3⟩ := storeEntries_spec gid (A ++ B) c2 (by rw [hlru2]; exact h.lru) g2 hv2 hszAB (by
    rw [hlru2]; simp; omega)
  obtain ⟨a3, b3, d3, -, -⟩ := afterL_spec (A ++ B) c.lru h.lru hszAB (by simp; omega)
  rw [hlru2] at l3 i3 u3
  have hex : executeInstrs gid c0 ⟨V, C, K⟩ = .ok c3 := by
    have tr2 : translate c2 (C.map fun x => (x.1, x.2.1)) = .ok A := by rw [translate_congr hst2 hlru2]; exact tr
    rw [storeEntries_append] at e3
    simp only [executeInstrs, e2, tr2, bind, Except.bind, hB]
    cases h4 : storeEntries gid A c2 with
    | error x => simp [h4, Except.bind] at e3
    | ok c4 => simpa [h4, Except.bind] using e3
  obtain ⟨na, nb, nd, ne, nf, grp, hgrp⟩ := findOrMake_spec g3 gid
  have hTn : (turnOffs o.old grp).Nodup := ((ho' _).nodup_iff.mpr (na.stores gid grp hgrp)).filter _
  obtain ⟨c5, e5, g5, s5, l5, i5, u5, grp5, hgrp5⟩ := toggleAll_spec gid (turnOffs o.old grp) (findOrMake c3 gid) na hTn ⟨grp, hgrp⟩
  refine ⟨{ c5 with groups := c5.groups.set gid { grp5 with generation := grp5.generation + 1 } }, X, V, turnOffs o.old grp, C, K, A, B,
    ?_, hsp, ?_, ?_⟩
  · have hl := headersLoop_eq o.has gid hs (findOrMake c gid) {} hps
    rw [e1] at hl
    simp only [makeBody, hl, bind, Except.bind, List.nil_append, hex, theGroup, hgrp, e5, hgrp5, pure, Except.pure]
  · simp only; rw [l5, nd, l3]
  · intro hkept hcnt
    simp only at hkept ⊢
    have hlru5 : c5.lru = afterL (A ++ B) c.lru := by rw [l5, nd, l3]
    have hnew : (afterL (A ++ B) c.lru).first ≤ c.lru.seqNum := by
      apply afterL_fit (A ++ B) c.lru c.lru.seqNum h.lru (by simp; omega) first_le (Nat.le_refl _)
      · have : c.lru.ring.drop (c.lru.seqNum - c.lru.first) = [] := by
          apply List.drop_eq_nil_of_le
          have := h.lru.lo
          unfold Lru.first; omega
        rw [this]; simp at hsum ⊢; omega
      · have : c.lru.ring.drop (c.lru.seqNum - c.lru.first) = [] := by
          apply List.drop_eq_nil_of_le
          have := h.lru.lo
          unfold Lru.first; omega
        rw [this]; simp; omega
    rw [hlru5] at hkept
    rw [l3] at i3 u3
    -- what is in the groups after storing
    have hin3 : ∀ x i, InG c3.groups x i ↔ (InG c.groups x i ∨ (x = gid ∧ i ∈ V) ∨
        (x = gid ∧ c.lru.seqNum ≤ i ∧ i < c.lru.seqNum + (A ++ B).length)) ∧ Alive (afterL (A ++ B) c.lru) i := by
      intro x i
      rw [i3, i2, i1, me]
      by_cases hx : x = gid ∧ i ∈ V
      · have : ¬ InG c.groups x i := by rw [hx.1]; exact (hsp.vOut i hx.2).1
        simp [hx, this, hx.1 ▸ this]
      · rw [if_neg hx]
        constructor
        · rintro ⟨p | p, q⟩
          · exact ⟨Or.inl p, q⟩
          · exact ⟨Or.inr (Or.inr p), q⟩
        · rintro ⟨p | p | p, q⟩
          · exact ⟨Or.inl p, q⟩
          · exact absurd p hx
          · exact ⟨Or.inr p, q⟩
    have hcur3 : ∀ x i, CurG c3.groups x i ↔ (x = gid ∧ (i ∈ X ∨ i ∈ V ∨ (c.lru.seqNum ≤ i ∧ i < c.lru.seqNum + (A ++ B).length))) := by
      intro x i
      rw [u3, u2, u1, i1, me, mf]
      have hal : ∀ j, c.lru.seqNum ≤ j → Alive (afterL (A ++ B) c.lru) j := fun j hj => Or.inr (by omega)
      by_cases hx : x = gid ∧ i ∈ V
      · have : ¬ InG c.groups x i := by rw [hx.1]; exact (hsp.vOut i hx.2).1
        have h2 := hkept i (Or.inr hx.2)
        rw [if_pos hx]
        exact ⟨fun _ => ⟨hx.1, Or.inr (Or.inl hx.2)⟩, fun _ => ⟨Or.inl this, h2⟩⟩
      · rw [if_neg hx]
        constructor
        · rintro ⟨(p | p) | p, q⟩
          · exact absurd p (hp x i)
          · exact ⟨p.1, Or.inl p.2⟩
          · exact ⟨p.1, Or.inr (Or.inr p.2)⟩
        · rintro ⟨p, q | q | q⟩
          · exact ⟨Or.inl (Or.inr ⟨p, q⟩), hkept i (Or.inl q)⟩
          · exact absurd ⟨p, q⟩ hx
          · exact ⟨Or.inr ⟨p, q⟩, hal i q.1⟩
    have hT : ∀ i, i ∈ turnOffs o.old grp ↔ InG c3.groups gid i ∧ ¬ CurG c3.groups gid i := by
      intro i
      unfold turnOffs
      rw [List.mem_filter, (ho' _).mem_iff, ← inG_keys hgrp, ne, ← nf]
      have : CurG (findOrMake c3 gid).groups gid i ↔ grp.store.get? i = some grp.generation := by
        constructor
        · rintro ⟨g', a, b⟩; rw [hgrp] at a; cases a; exact b
        · intro b; exact ⟨grp, hgrp, b⟩
      rw [this]
      simp
    have hTs : ∀ i, i ∈ turnOffs o.old grp ↔ InG c.groups gid i ∧ i ∉ X ∧ Alive (afterL (A ++ B) c.lru) i := by
      intro i
      rw [hT, hin3, hcur3]
      constructor
      · rintro ⟨⟨p | p | p, q⟩, r⟩
        · exact ⟨p, fun hc => r ⟨rfl, Or.inl hc⟩, q⟩
        · exact absurd ⟨rfl, Or.inr (Or.inl p.2)⟩ r
        · exact absurd ⟨rfl, Or.inr (Or.inr p.2)⟩ r
      · rintro ⟨p, q, r⟩
        refine ⟨⟨Or.inl p, r⟩, ?_⟩
        rintro ⟨-, s | s | s⟩
        · exact q s
        · exact (hsp.vOut i s).1 p
        · have := h.valid gid i p
          have := h.lru.lo
          omega
    have hin5 : ∀ i, InG c5.groups gid i ↔ i ∈ X ∨ i ∈ V ∨ (c.lru.seqNum ≤ i ∧ i < c.lru.seqNum + (A ++ B).length) := by
      intro i
      rw [i5, ne]
      have h1 : CurG c3.groups gid i ↔ _ := hcur3 gid i
      by_cases hi : i ∈ turnOffs o.old grp
      · rw [if_pos ⟨rfl, hi⟩]
        have := (hT i).mp hi
        rw [h1] at this
        simp only [true_and] at this
        exact ⟨fun hc => absurd this.1 hc, fun hc => absurd hc this.2⟩
      · rw [if_neg (fun hc => hi hc.2)]
        simp only [true_and] at h1
        rw [← h1]
        constructor
        · intro p
          by_contra hc
          exact hi ((hT i).mpr ⟨p, hc⟩)
        · exact CurG.inG
    obtain ⟨z1, z2, z3⟩ := setG_spec (gid := gid) (g := { grp5 with generation := grp5.generation + 1 }) g5 (g5.stores gid grp5 hgrp5) (by
      intro i n hn
      have := g5.le gid grp5 i n hgrp5 hn
      simp only; omega)
    have hin6 : ∀ x i, InG (c5.groups.set gid { grp5 with generation := grp5.generation + 1 }) x i ↔ InG c5.groups x i := by
      intro x i
      rw [z2]
      split
      · rename_i hx; subst hx
        constructor
        · rintro ⟨n, hn⟩; exact ⟨grp5, n, hgrp5, hn⟩
        · rintro ⟨g', n, a, b⟩; rw [hgrp5] at a; cases a; exact ⟨n, b⟩
      · rfl
    have hvalid : Valid { c5 with groups := c5.groups.set gid { grp5 with generation := grp5.generation + 1 } } := by
      intro x i hi
      simp only at hi ⊢
      rw [hin6, i5, ne] at hi
      have hc3 : InG c3.groups x i := by
        split at hi
        · rename_i hx
          rw [hx.1] at hi
          exact absurd ((hT i).mp hx.2).1 hi
        · exact hi
      have := v3 x i hc3
      rw [l3] at this
      rw [hlru5]
      exact this
    refine ⟨⟨?_, ?_, z1, hvalid⟩, ?_, ⟨_, by rw [Dict.get?_set, if_pos rfl]⟩, hTn, by rw [hlru5]; exact hTs, ?_, ?_⟩
    · simp only; rw [s5, nb, s3, hst2, h.static]
    · simp only; rw [hlru5]; exact a3
    · intro x i hc
      rw [z3] at hc
      split at hc
      · have : grp5.generation + 1 ≤ grp5.generation := g5.le gid grp5 i _ hgrp5 hc
        omega
      · rename_i hx
        rw [u5, if_neg (fun hh => hx hh.1.symm), nf, hcur3] at hc
        exact hx hc.1.symm
    · intro i; rw [hin6]; exact hin5 i
    · intro x i hx
      rw [hin6, i5, if_neg (fun hh => hx hh.1), ne, hin3, hlru5]
      constructor
      · rintro ⟨p | p | p, q⟩
        · exact ⟨p, q⟩
        · exact absurd p.1 hx
        · exact absurd p.1 hx
      · rintro ⟨p, q⟩; exact ⟨Or.inl p, q⟩

end Verif.Delta2Bohe
