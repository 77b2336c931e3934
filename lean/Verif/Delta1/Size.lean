import Verif.Delta1.GroupStep
/-
How long a frame of the first delta compressor is.
-/
namespace Verif.Delta1
open Verif Verif.Bits Verif.Bits.Spec Verif.Huff Verif.Delta2

/-! ### Ranges -/

/-- A range takes as many bytes as two toggles. -/
def RangeSt.weight (st : RangeSt) : Nat := st.ot.length + 2 * st.otr.length

theorem rangeStep_weight (st : RangeSt) (i : Nat) : (rangeStep st i).weight ≤ st.weight + 1 := by
  have helse : (rangeStep.rangeElse st i).weight ≤ st.weight + 1 := by
    unfold rangeStep.rangeElse
    split
    · rename_i x hx
      have : 0 < st.ot.length := by
        cases h : st.ot with
        | nil => rw [h] at hx; cases hx
        | cons a l => simp
      split
      · simp only [RangeSt.weight, List.length_dropLast, List.length_append, List.length_singleton]
        omega
      · simp only [RangeSt.weight, List.length_append, List.length_singleton]
        omega
    · simp only [RangeSt.weight, List.length_append, List.length_singleton]
      omega
  unfold rangeStep
  split
  · rename_i r hr
    have : 0 < st.otr.length := by
      cases h : st.otr with
      | nil => rw [h] at hr; cases hr
      | cons a l => simp
    split
    · simp only [RangeSt.weight, List.length_dropLast, List.length_append, List.length_singleton]
      omega
    · exact helse
  · exact helse

theorem toggleRanges_weight (l : List Nat) : (toggleRanges l).weight ≤ l.length := by
  have key : ∀ (l : List Nat) (st : RangeSt), (l.foldl rangeStep st).weight ≤ st.weight + l.length := by
    intro l
    induction l with
    | nil => intro st; simp
    | cons i l ih =>
      intro st
      have h1 := rangeStep_weight st i
      have h2 := ih (rangeStep st i)
      rw [List.foldl_cons, List.length_cons]
      omega
  have := key (sortBy (fun a b => decide (a ≤ b)) l) {}
  rw [(sortBy_perm _ l).length_eq] at this
  have h0 : ({} : RangeSt).weight = 0 := rfl
  rw [h0] at this
  simpa [toggleRanges] using this

/-! ### Strings and operations -/

/-- The bytes of a string. -/
def strBytes (codes : List (List Bool)) (s : Str) : Nat := (strB codes s).length / 8

theorem strBytes_eq (codes : List (List Bool)) (s : Str) : strBytes codes s = ((textBits codes (s ++ [256])).length + 7) / 8 := by
  simp only [strBytes, strB, strBits, if_true, List.length_append, padZeros, List.length_replicate, Nat.zero_add]
  omega

/-- What a header takes at most. -/
def hdrBytes (codes : List (List Bool)) (x : Hdr) : Nat := max 2 (strBytes codes x.1) + strBytes codes x.2

theorem opB_le (codes : List (List Bool)) (s : Store) {op : Op} (h : op.isToggle = false) :
    (opB codes op).length ≤ 8 * hdrBytes codes (litOf s op) := by
  have hb : ∀ x, (strB codes x).length = 8 * strBytes codes x := fun x => by
    have := strB_len codes x
    unfold strBytes
    omega
  cases op with
  | toggl i => cases h
  | trang a b => cases h
  | clone k v =>
    have : (litOf s (.clone k v)).2 = v := rfl
    simp only [opB, List.length_append, natBits_length, hdrBytes, hb, this]
    omega
  | kvsto k v =>
    have h1 : litOf s (.kvsto k v) = (k, v) := rfl
    simp only [opB, List.length_append, hdrBytes, hb, h1]
    omega
  | eref k v =>
    have h1 : litOf s (.eref k v) = (k, v) := rfl
    simp only [opB, List.length_append, hdrBytes, hb, h1]
    omega

theorem opsB_le (codes : List (List Bool)) (s : Store) (ops : List Op) (h : ∀ op ∈ ops, op.isToggle = false) :
    (opsB codes ops).length ≤ 8 * ((ops.map (litOf s)).map (hdrBytes codes)).sum := by
  induction ops with
  | nil => simp [opsB]
  | cons op ops ih =>
    have h1 := opB_le codes s (h op (by simp))
    have h2 := ih (fun o ho => h o (by simp [ho]))
    simp only [opsB, List.flatMap_cons, List.length_append, List.map_cons, List.sum_cons] at h2 ⊢
    omega

theorem opsB_const (codes : List (List Bool)) (n : Nat) (ops : List Op) (h : ∀ op ∈ ops, (opB codes op).length = n) :
    (opsB codes ops).length = n * ops.length := by
  induction ops with
  | nil => simp [opsB]
  | cons op ops ih =>
    have h1 := h op (by simp)
    have h2 := ih (fun o ho => h o (by simp [ho]))
    simp only [opsB, List.flatMap_cons, List.length_append, List.length_cons] at h2 ⊢
    rw [h1, h2]
    ring

theorem blockB_le (codes : List (List Bool)) (blk : Opcode × List Op) : (blockB codes blk).length ≤ 16 + (opsB codes blk.2).length := by
  unfold blockB
  split
  · simp
  · simp only [List.length_append, natBits_length]
    omega

theorem payload_le (codes : List (List Bool)) (s : Store) (g : Instrs) : (payloadB codes g.groups).length ≤
    80 + 16 * g.toggl.length + 8 * ((g.lits.map (litOf s)).map (hdrBytes codes)).sum := by
  have hw := toggleRanges_weight g.toggl
  unfold RangeSt.weight at hw
  have h1 := blockB_le codes (.toggl, (toggleRanges g.toggl).ot.map .toggl)
  have h2 := blockB_le codes (.trang, (toggleRanges g.toggl).otr.map fun x => .trang x.1 x.2)
  have h3 := blockB_le codes (.clone, g.clone.map fun x => .clone x.1 x.2)
  have h4 := blockB_le codes (.kvsto, g.kvsto.map fun x => .kvsto x.1 x.2)
  have h5 := blockB_le codes (.eref, g.eref.map fun x => .eref x.1 x.2)
  have e1 := opsB_const codes 16 ((toggleRanges g.toggl).ot.map .toggl) (by simp [opB])
  have e2 := opsB_const codes 32 ((toggleRanges g.toggl).otr.map fun x => .trang x.1 x.2) (by
    intro op ho
    obtain ⟨x, -, rfl⟩ := List.mem_map.1 ho
    simp [opB])
  have e3 := opsB_le codes s g.lits (lits_isToggle g)
  have e4 : (opsB codes g.lits).length = (opsB codes (g.clone.map fun x => .clone x.1 x.2)).length +
      (opsB codes (g.kvsto.map fun x => .kvsto x.1 x.2)).length + (opsB codes (g.eref.map fun x => .eref x.1 x.2)).length := by
    simp only [opsB, Instrs.lits, List.flatMap_append, List.length_append]
  have e5 : (payloadB codes g.groups).length = (blockB codes (.toggl, (toggleRanges g.toggl).ot.map .toggl)).length +
      ((blockB codes (.trang, (toggleRanges g.toggl).otr.map fun x => .trang x.1 x.2)).length +
      ((blockB codes (.clone, g.clone.map fun x => .clone x.1 x.2)).length +
      ((blockB codes (.kvsto, g.kvsto.map fun x => .kvsto x.1 x.2)).length +
      (blockB codes (.eref, g.eref.map fun x => .eref x.1 x.2)).length))) := by
    simp only [payloadB, Instrs.groups, List.flatMap_cons, List.flatMap_nil, List.length_append, List.append_nil]
  simp only [List.length_map] at e1 e2
  rw [e5]
  simp only at h1 h2 h3 h4 h5
  omega

/-- The entries toggled and the headers sent, out of lists that contain them. -/
theorem OpsSent.size {c : Codec} (ho : Once c) {gid : Nat} {headers : Dict Str Str} {g : Instrs} (h : OpsSent c gid headers g)
    (hnd : g.toggl.Nodup) (codes : List (List Bool)) (tog new : List Hdr)
    (ht : ∀ kv, Held c kv → ¬ (InGroup c gid kv ↔ kv ∈ headersSet headers) → kv ∈ tog)
    (hn : ∀ kv ∈ headersSet headers, isEref kv = true ∨ ¬ Held c kv → kv ∈ new) :
    g.toggl.length ≤ tog.length ∧
      ((g.lits.map (litOf c.store)).map (hdrBytes codes)).sum ≤ (new.map (hdrBytes codes)).sum := by
  constructor
  · have hsub : g.toggl ⊆ tog.filterMap fun x => (c.store.lru.find? fun ve => decide (ve.hdr = x)).map VE.idx := by
      intro i him
      obtain ⟨ve, hv, rfl, hx⟩ := (h.toggl i).1 him
      refine List.mem_filterMap.2 ⟨ve.hdr, ht _ ⟨ve, hv, rfl⟩ hx, ?_⟩
      cases hf : c.store.lru.find? fun w => decide (w.hdr = ve.hdr) with
      | none =>
        rw [List.find?_eq_none] at hf
        exact absurd (decide_eq_true rfl) (hf ve hv)
      | some w =>
        have h1 := List.mem_of_find?_eq_some hf
        have h2 := List.find?_some hf
        rw [decide_eq_true_eq] at h2
        rw [ho.eq h1 hv h2]
        rfl
    exact (List.subperm_of_subset hnd hsub).length_le.trans (List.length_filterMap_le _ _)
  · have hsub : g.lits.map (litOf c.store) ⊆ new := by
      intro x hx
      obtain ⟨op, hop, rfl⟩ := List.mem_map.1 hx
      cases hs : op.isStored with
      | true =>
        have := (h.stored (litOf c.store op)).1 (List.mem_map.2 ⟨op, List.mem_filter.2 ⟨hop, hs⟩, rfl⟩)
        exact hn _ this.1 (.inr this.2.2)
      | false =>
        have he : litOf c.store op ∈ g.eref := by
          simp only [Instrs.lits, List.mem_append, List.mem_map] at hop
          rcases hop with (⟨y, hy, rfl⟩ | ⟨y, hy, rfl⟩) | ⟨y, hy, rfl⟩
          · cases hs
          · cases hs
          · exact hy
        have := List.mem_filter.1 (h.erefs.mem_iff.1 he)
        exact hn _ this.1 (.inl this.2)
    obtain ⟨l, h1, h2⟩ := List.subperm_of_subset h.once hsub
    rw [← (h1.map (hdrBytes codes)).sum_eq]
    exact (h2.map _).sum_le_sum (by simp)

theorem compress_size {u : Setup} (hG : GroupOrder u.ordG) {codes : List (List Bool)} (hc : Codes u.huffman codes)
    (h257 : codes.length = 257) {c c' : Compressor} (hr : Ready u c) {m : Message} (hm : MessageOk u m) {blob : Str}
    (h : compress u c m = .ok (c', blob)) (tog new : List Hdr)
    (ht : ∀ kv, Held c.codec kv → ¬ (InGroup c.codec (groupOf u c m.host).2 kv ↔ kv ∈ headersSet m.headers) → kv ∈ tog)
    (hn : ∀ kv ∈ headersSet m.headers, isEref kv = true ∨ ¬ Held c.codec kv → kv ∈ new)
    (hfit : 19 + 2 * tog.length + (new.map (hdrBytes codes)).sum ≤ 65536) :
    blob.length ≤ 19 + 2 * tog.length + (new.map (hdrBytes codes)).sum := by
  obtain ⟨k1, k2, k3⟩ := groupOf_spec u hr.hosts m.host
  generalize hg : groupOf u c m.host = r at k1 k2 k3 h ht
  simp only [compress, hg, bind, Except.bind, k2] at h
  split at h
  · cases h
  rename_i v hv
  obtain ⟨codec, g⟩ := v
  dsimp only at h
  split at h
  · cases h
  rename_i blob' hb
  simp only [pure, Except.pure, Except.ok.injEq, Prod.mk.injEq] at h
  obtain ⟨rfl, rfl⟩ := h
  have hst : ∀ x ∈ headersSet m.headers, x.1 ≠ c.codec.store.staticKey := by rw [hr.key]; exact headersSet_names hm.names
  obtain ⟨a1, a2, a3, a4, ⟨hg0, hmade, hlen⟩, a6⟩ := message_spec hG hm.orders hr.inv hst hv
  obtain ⟨b1, b2, b3, b4⟩ := message_once hG hm.orders hr.inv hr.once hr.noEref hst hv
  obtain ⟨i1, -⟩ := findOrMake_inv hr.inv r.2
  have hgs := made_ok i1 hmade hm.bytes
  obtain ⟨bytes, payload, more, w1, -, -, -, w5, -, w7, -⟩ := wire_any hc h257 g.groups hgs r.2 k3
  rw [hb] at w1
  cases w1
  obtain ⟨s1, s2⟩ := b1.size hr.once hmade.nd codes tog new ht hn
  have hp := payload_le codes c.codec.store g
  have := w7 (by omega)
  omega

/-! ### From below -/

theorem opsB_ge (codes : List (List Bool)) (s : Store) (ops : List Op) (h : ∀ op ∈ ops, op.isToggle = false) :
    8 * ((ops.map (litOf s)).map fun x => strBytes codes x.2).sum ≤ (opsB codes ops).length := by
  have hb : ∀ x, (strB codes x).length = 8 * strBytes codes x := fun x => by
    have := strB_len codes x
    unfold strBytes
    omega
  induction ops with
  | nil => simp [opsB]
  | cons op ops ih =>
    have h2 := ih (fun o ho => h o (by simp [ho]))
    have h1 : 8 * strBytes codes (litOf s op).2 ≤ (opB codes op).length := by
      have ht := h op (by simp)
      cases op with
      | toggl i => cases ht
      | trang a b => cases ht
      | clone k v =>
        have : (litOf s (.clone k v)).2 = v := rfl
        simp only [opB, List.length_append, hb, this]
        omega
      | kvsto k v =>
        have : litOf s (.kvsto k v) = (k, v) := rfl
        simp only [opB, List.length_append, hb, this]
        omega
      | eref k v =>
        have : litOf s (.eref k v) = (k, v) := rfl
        simp only [opB, List.length_append, hb, this]
        omega
    simp only [opsB, List.flatMap_cons, List.length_append, List.map_cons, List.sum_cons] at h2 ⊢
    omega

theorem blockB_ge (codes : List (List Bool)) (blk : Opcode × List Op) : (opsB codes blk.2).length ≤ (blockB codes blk).length := by
  unfold blockB
  split
  · rename_i h
    rw [List.length_eq_zero_iff] at h
    rw [h]
    simp [opsB]
  · simp only [List.length_append]
    omega

theorem payload_ge (codes : List (List Bool)) (s : Store) (g : Instrs) :
    8 * ((g.lits.map (litOf s)).map fun x => strBytes codes x.2).sum ≤ (payloadB codes g.groups).length := by
  have h3 := blockB_ge codes (.clone, g.clone.map fun x => .clone x.1 x.2)
  have h4 := blockB_ge codes (.kvsto, g.kvsto.map fun x => .kvsto x.1 x.2)
  have h5 := blockB_ge codes (.eref, g.eref.map fun x => .eref x.1 x.2)
  have e3 := opsB_ge codes s g.lits (lits_isToggle g)
  have e4 : (opsB codes g.lits).length = (opsB codes (g.clone.map fun x => .clone x.1 x.2)).length +
      (opsB codes (g.kvsto.map fun x => .kvsto x.1 x.2)).length + (opsB codes (g.eref.map fun x => .eref x.1 x.2)).length := by
    simp only [opsB, Instrs.lits, List.flatMap_append, List.length_append]
  simp only [payloadB, Instrs.groups, List.flatMap_cons, List.flatMap_nil, List.length_append, List.append_nil]
  simp only at h3 h4 h5
  omega

theorem compress_least {u : Setup} (hG : GroupOrder u.ordG) {codes : List (List Bool)} (hc : Codes u.huffman codes)
    (h257 : codes.length = 257) {c c' : Compressor} (hr : Ready u c) {m : Message} (hm : MessageOk u m) {blob : Str}
    (h : compress u c m = .ok (c', blob)) (l : List Hdr) (hnd : l.Nodup)
    (hl : ∀ x ∈ l, x ∈ headersSet m.headers ∧ (isEref x = true ∨ ¬ Held c.codec x)) :
    9 + (l.map fun x => strBytes codes x.2).sum ≤ blob.length := by
  obtain ⟨k1, k2, k3⟩ := groupOf_spec u hr.hosts m.host
  generalize hg : groupOf u c m.host = r at k1 k2 k3 h
  simp only [compress, hg, bind, Except.bind, k2] at h
  split at h
  · cases h
  rename_i v hv
  obtain ⟨codec, g⟩ := v
  dsimp only at h
  split at h
  · cases h
  rename_i blob' hb
  simp only [pure, Except.pure, Except.ok.injEq, Prod.mk.injEq] at h
  obtain ⟨rfl, rfl⟩ := h
  have hst : ∀ x ∈ headersSet m.headers, x.1 ≠ c.codec.store.staticKey := by rw [hr.key]; exact headersSet_names hm.names
  obtain ⟨a1, a2, a3, a4, ⟨hg0, hmade, hlen⟩, a6⟩ := message_spec hG hm.orders hr.inv hst hv
  obtain ⟨b1, b2, b3, b4⟩ := message_once hG hm.orders hr.inv hr.once hr.noEref hst hv
  obtain ⟨i1, -⟩ := findOrMake_inv hr.inv r.2
  have hgs := made_ok i1 hmade hm.bytes
  obtain ⟨bytes, payload, more, w1, -, -, -, w5, -, w7, -⟩ := wire_any hc h257 g.groups hgs r.2 k3
  rw [hb] at w1
  cases w1
  have hp := payload_ge codes c.codec.store g
  have hsub : l ⊆ g.lits.map (litOf c.codec.store) := by
    intro x hx
    obtain ⟨h1, h2⟩ := hl x hx
    cases he : isEref x with
    | true =>
      have := b1.erefs.mem_iff.2 (List.mem_filter.2 ⟨h1, he⟩)
      refine List.mem_map.2 ⟨.eref x.1 x.2, ?_, rfl⟩
      simp only [Instrs.lits, List.mem_append, List.mem_map]
      exact .inr ⟨x, this, rfl⟩
    | false =>
      have hh : ¬ Held c.codec x := h2.resolve_left (by rw [he]; simp)
      obtain ⟨op, hop, hx'⟩ := List.mem_map.1 ((b1.stored x).2 ⟨h1, he, hh⟩)
      exact List.mem_map.2 ⟨op, List.mem_of_mem_filter hop, hx'⟩
  obtain ⟨l', p1, p2⟩ := List.subperm_of_subset hnd hsub
  have hs : (l.map fun x => strBytes codes x.2).sum ≤ ((g.lits.map (litOf c.codec.store)).map fun x => strBytes codes x.2).sum := by
    rw [← (p1.map fun x => strBytes codes x.2).sum_eq]
    exact (p2.map _).sum_le_sum (by simp)
  omega

end Verif.Delta1
