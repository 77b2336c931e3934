import Verif.Delta2.CodecLemmas
/-
What is counted: the counts of the cells of the strings, and the size of the ring (C27).

The KV objects made while operations are executed are never released, so the count of a key's cell is always larger
than the number of entries that use it, and its characters are counted as 0.
-/
namespace Verif.Delta2
open Verif

/-- The cells used by some KVs. -/
def cells (kvs : List KV) : List Nat := kvs.flatMap fun kv => [kv.kcell, kv.vcell]

/-- Somebody else holds the cell, too. -/
def Held (c : Counts) (cs : List Nat) (a : Nat) : Prop := a < c.length ∧ 1 + (cs.count a : Int) ≤ c.getD a 0

/-- Nobody else holds the cell. -/
def Owned (c : Counts) (cs : List Nat) (a : Nat) : Prop := a < c.length ∧ c.getD a 0 = 1 ∧ cs.count a = 1

/-- The cells of the values: shared with `refcnt_vals`, else of their own. -/
def ValOk (rv : Bool) (c : Counts) (cs : List Nat) (a : Nat) : Prop := if rv then Held c cs a else Owned c cs a

/-- The cells of all keys are held by somebody else. -/
def KVsOk (rv : Bool) (c : Counts) (kvs : List KV) : Prop :=
  ∀ kv ∈ kvs, Held c (cells kvs) kv.kcell ∧ ValOk rv c (cells kvs) kv.vcell

theorem ValOk.lt {rv : Bool} {c : Counts} {cs : List Nat} {a : Nat} (h : ValOk rv c cs a) : a < c.length := by
  cases rv
  · exact h.1
  · exact h.1

theorem getD_modify (c : Counts) (a b : Nat) (f : Int → Int) (hb : b < c.length) :
    (c.modify a f).getD b 0 = if a = b then f (c.getD b 0) else c.getD b 0 := by
  simp only [List.getD_eq_getElem?_getD, List.getElem?_modify, List.getElem?_eq_getElem hb, Option.getD_some]
  split <;> rfl

theorem cells_append (x y : List KV) : cells (x ++ y) = cells x ++ cells y := List.flatMap_append

theorem mem_cells {kvs : List KV} {kv : KV} (h : kv ∈ kvs) : kv.kcell ∈ cells kvs ∧ kv.vcell ∈ cells kvs := by
  constructor
  · exact List.mem_flatMap.2 ⟨kv, h, by simp⟩
  · exact List.mem_flatMap.2 ⟨kv, h, by simp⟩

theorem KVsOk.lt {rv : Bool} {c : Counts} {kvs : List KV} (h : KVsOk rv c kvs) : ∀ a ∈ cells kvs, a < c.length := by
  intro a ha
  obtain ⟨kv, hkv, ha⟩ := List.mem_flatMap.1 ha
  simp only [List.mem_cons, List.not_mem_nil, or_false] at ha
  rcases ha with rfl | rfl
  · exact (h kv hkv).1.1
  · exact (h kv hkv).2.lt

theorem Held.not_owned {c : Counts} {cs : List Nat} {a : Nat} (h : Held c cs a) (h' : Owned c cs a) : False := by
  have h1 := h.2
  have h2 := h'.2.1
  have h3 := h'.2.2
  omega

/-! ### Releasing -/

theorem done_getD (c : Counts) (kv : KV) (a : Nat) (ha : a < c.length) :
    (kv.done c).getD a 0 = c.getD a 0 - ([kv.kcell, kv.vcell].count a : Int) := by
  unfold KV.done dropCell
  rw [getD_modify _ _ _ _ (by rwa [List.length_modify]), getD_modify _ _ _ _ ha]
  simp only [List.count_cons, List.count_nil, beq_iff_eq]
  split <;> split <;> push_cast <;> omega

theorem done_length (c : Counts) (kv : KV) : (kv.done c).length = c.length := by
  simp [KV.done, dropCell]

theorem held_done {c : Counts} {x : KV} {kvs : List KV} {a : Nat} (h : Held c (cells (x :: kvs)) a) :
    Held (x.done c) (cells kvs) a := by
  refine ⟨by rw [done_length]; exact h.1, ?_⟩
  rw [done_getD _ _ _ h.1]
  have h2 := h.2
  have : cells (x :: kvs) = [x.kcell, x.vcell] ++ cells kvs := rfl
  rw [this, List.count_append] at h2
  push_cast at h2
  omega

theorem kvsOk_done {rv : Bool} {c : Counts} {x : KV} {kvs : List KV} (h : KVsOk rv c (x :: kvs)) : KVsOk rv (x.done c) kvs := by
  intro kv hkv
  obtain ⟨h1, h2⟩ := h kv (by simp [hkv])
  refine ⟨held_done h1, ?_⟩
  cases rv with
  | true => exact held_done h2
  | false =>
    obtain ⟨g1, g2, g3⟩ := h2
    have : cells (x :: kvs) = [x.kcell, x.vcell] ++ cells kvs := rfl
    rw [this, List.count_append] at g3
    have hp := List.count_pos_iff.2 (mem_cells hkv).2
    refine ⟨by rw [done_length]; exact g1, ?_, by omega⟩
    rw [done_getD _ _ _ g1]
    omega

theorem held_init {c : Counts} {x : KV} {kvs : List KV} {a : Nat} (h : Held c (cells (kvs ++ [x])) a) : Held c (cells kvs) a := by
  refine ⟨h.1, ?_⟩
  have h2 := h.2
  rw [cells_append, List.count_append] at h2
  push_cast at h2
  omega

theorem kvsOk_init {rv : Bool} {c : Counts} {x : KV} {kvs : List KV} (h : KVsOk rv c (kvs ++ [x])) : KVsOk rv c kvs := by
  intro kv hkv
  obtain ⟨h1, h2⟩ := h kv (by simp [hkv])
  refine ⟨held_init h1, ?_⟩
  cases rv with
  | true => exact held_init h2
  | false =>
    obtain ⟨g1, g2, g3⟩ := h2
    rw [cells_append, List.count_append] at g3
    have hp := List.count_pos_iff.2 (mem_cells hkv).2
    exact ⟨g1, g2, by omega⟩

/-! ### Sharing -/

theorem share_length (c : Counts) (a : Nat) : (shareCell c a).length = c.length := by simp [shareCell]

theorem held_share {c : Counts} {cs : List Nat} {a b : Nat} (h : Held c cs b) : Held (shareCell c a) cs b := by
  refine ⟨by rw [share_length]; exact h.1, ?_⟩
  have h2 := h.2
  rw [shareCell, getD_modify _ _ _ _ h.1]
  split <;> omega

theorem kvsOk_share {rv : Bool} {c : Counts} {kvs : List KV} {a : Nat} (h : KVsOk rv c kvs) (ha : Held c (cells kvs) a) :
    KVsOk rv (shareCell c a) kvs := by
  intro kv hkv
  obtain ⟨h1, h2⟩ := h kv hkv
  refine ⟨held_share h1, ?_⟩
  cases rv with
  | true => exact held_share h2
  | false =>
    have hne : a ≠ kv.vcell := by
      rintro rfl
      exact ha.not_owned h2
    obtain ⟨g1, g2, g3⟩ := h2
    refine ⟨by rw [share_length]; exact g1, ?_, g3⟩
    rw [shareCell, getD_modify _ _ _ _ g1, if_neg hne]
    exact g2

theorem new_getD {c : Counts} {a : Nat} (ha : a < c.length) : (newCell c).1.getD a 0 = c.getD a 0 := by
  simp only [newCell, List.getD_eq_getElem?_getD, List.getElem?_append_left ha]

theorem new_self (c : Counts) : (newCell c).1.getD (newCell c).2 0 = 1 := by
  simp [newCell]

theorem new_length (c : Counts) : (newCell c).1.length = c.length + 1 := by simp [newCell]

theorem held_new {c : Counts} {cs : List Nat} {b : Nat} (h : Held c cs b) : Held (newCell c).1 cs b := by
  refine ⟨by rw [new_length]; exact Nat.lt_succ_of_lt h.1, ?_⟩
  rw [new_getD h.1]
  exact h.2

theorem kvsOk_new {rv : Bool} {c : Counts} {kvs : List KV} (h : KVsOk rv c kvs) : KVsOk rv (newCell c).1 kvs := by
  intro kv hkv
  obtain ⟨h1, h2⟩ := h kv hkv
  refine ⟨held_new h1, ?_⟩
  cases rv with
  | true => exact held_new h2
  | false =>
    obtain ⟨g1, g2, g3⟩ := h2
    exact ⟨by rw [new_length]; exact Nat.lt_succ_of_lt g1, by rw [new_getD g1]; exact g2, g3⟩

theorem new_held {rv : Bool} {c : Counts} {kvs : List KV} (h : KVsOk rv c kvs) : Held (newCell c).1 (cells kvs) (newCell c).2 := by
  refine ⟨by simp [newCell], ?_⟩
  rw [new_self]
  have : (cells kvs).count (newCell c).2 = 0 := by
    rw [List.count_eq_zero]
    intro hm
    have := h.lt _ hm
    simp [newCell] at this
  omega

/-! ### A new KV that shares cells -/

/-- What is stored for a KV, spdy4_codec_impl.py 1038-1041. -/
def copyKV (rv : Bool) (c : Counts) (kv : KV) : Counts × KV := if rv then kvShare c kv else kvShareKey c kv kv.val

theorem copy_ok {rv : Bool} {c : Counts} {kvs : List KV} (h : KVsOk rv c kvs) {kv : KV} (hk : Held c (cells kvs) kv.kcell)
    (hv : rv = true → Held c (cells kvs) kv.vcell) :
    KVsOk rv (copyKV rv c kv).1 (kvs ++ [(copyKV rv c kv).2]) ∧
      ∀ a, Held c (cells kvs) a → Held (copyKV rv c kv).1 (cells (kvs ++ [(copyKV rv c kv).2])) a := by
  cases rv with
  | true =>
    have hv := hv rfl
    have hmono : ∀ a, Held c (cells kvs) a → Held (copyKV true c kv).1 (cells (kvs ++ [(copyKV true c kv).2])) a := by
      intro a ha
      have h2 := ha.2
      refine ⟨by simp only [copyKV, if_true, kvShare, share_length]; exact ha.1, ?_⟩
      simp only [copyKV, if_true, kvShare, cells_append]
      rw [shareCell, getD_modify _ _ _ _ (by rw [share_length]; exact ha.1), shareCell, getD_modify _ _ _ _ ha.1]
      have : cells [kv] = [kv.kcell, kv.vcell] := rfl
      rw [this]
      simp only [List.count_append, List.count_cons, List.count_nil, beq_iff_eq]
      split <;> split <;> push_cast <;> omega
    refine ⟨fun x hx => ?_, hmono⟩
    rcases List.mem_append.1 hx with hx | hx
    · exact ⟨hmono _ (h x hx).1, hmono _ (h x hx).2⟩
    · rw [List.mem_singleton.1 hx]
      exact ⟨hmono _ hk, hmono _ hv⟩
  | false =>
    have hcopy : copyKV false c kv = ((newCell (shareCell c kv.kcell)).1, { key := kv.key, kcell := kv.kcell, val := kv.val, vcell := c.length }) := by
      simp [copyKV, kvShareKey, newCell, share_length]
    rw [hcopy]
    have hcell : ∀ x : KV, cells [x] = [x.kcell, x.vcell] := fun _ => rfl
    have hfresh : ∀ a, a < c.length → c.length ≠ a := fun a ha => by omega
    have hget : ∀ a, a < c.length → (newCell (shareCell c kv.kcell)).1.getD a 0 = if kv.kcell = a then c.getD a 0 + 1 else c.getD a 0 := by
      intro a ha
      rw [new_getD (by rwa [share_length]), shareCell, getD_modify _ _ _ _ ha]
    have hlen : (newCell (shareCell c kv.kcell)).1.length = c.length + 1 := by rw [new_length, share_length]
    have hmono : ∀ a, Held c (cells kvs) a → Held (newCell (shareCell c kv.kcell)).1
        (cells (kvs ++ [{ key := kv.key, kcell := kv.kcell, val := kv.val, vcell := c.length }])) a := by
      intro a ha
      have h2 := ha.2
      refine ⟨by rw [hlen]; exact Nat.lt_succ_of_lt ha.1, ?_⟩
      rw [hget a ha.1, cells_append, hcell]
      simp only [List.count_append, List.count_cons, List.count_nil, beq_iff_eq, if_neg (hfresh a ha.1)]
      split <;> push_cast <;> omega
    refine ⟨fun x hx => ?_, hmono⟩
    rcases List.mem_append.1 hx with hx | hx
    · obtain ⟨h1, g1, g2, g3⟩ := h x hx
      have hne : kv.kcell ≠ x.vcell := by
        intro he
        rw [he] at hk
        exact hk.not_owned ⟨g1, g2, g3⟩
      refine ⟨hmono _ h1, ⟨by rw [hlen]; exact Nat.lt_succ_of_lt g1, by rw [hget _ g1, if_neg hne]; exact g2, ?_⟩⟩
      rw [cells_append, hcell]
      simp only [List.count_append, List.count_cons, List.count_nil, beq_iff_eq, if_neg (hfresh _ g1), if_neg hne]
      exact g3
    · rw [List.mem_singleton.1 hx]
      refine ⟨hmono _ hk, ⟨by rw [hlen]; exact Nat.lt_succ_self _, ?_, ?_⟩⟩
      · have := new_self (shareCell c kv.kcell)
        simpa only [newCell, share_length] using this
      · have hz : (cells kvs).count c.length = 0 := by
          rw [List.count_eq_zero]
          intro hm
          have := h.lt _ hm
          omega
        rw [cells_append, hcell]
        simp only [List.count_append, List.count_cons, List.count_nil, beq_iff_eq, hz]
        have hne : kv.kcell ≠ c.length := Nat.ne_of_lt hk.1
        simp [hne]

/-! ### Sizes -/

/-- The characters counted for a KV. -/
def weight (rv : Bool) (kv : KV) : Int := if rv then 0 else kv.val.length

/-- The characters counted for some KVs. -/
def weights (rv : Bool) (kvs : List KV) : Int := (kvs.map (weight rv)).sum

theorem byteSize_ok {rv : Bool} {c : Counts} {kvs : List KV} (h : KVsOk rv c kvs) {kv : KV} (hkv : kv ∈ kvs) :
    kv.byteSize c = weight rv kv := by
  obtain ⟨h1, h2⟩ := h kv hkv
  have big : ∀ (a : Nat) (s : Str), a ∈ cells kvs → Held c (cells kvs) a → cellLen c a s = 0 := by
    intro a s ha hh
    have := List.count_pos_iff.2 ha
    have := hh.2
    rw [cellLen, if_pos (by omega)]
  rw [KV.byteSize, big _ _ (mem_cells hkv).1 h1, add_zero]
  cases rv with
  | true => rw [big _ _ (mem_cells hkv).2 h2]; rfl
  | false =>
    rw [cellLen, if_neg (by rw [h2.2.1]; omega)]
    rfl

/-- A ring with another KV that is about to be stored. -/
structure RingCells (rv : Bool) (c : Counts) (s : Lru) (new : List KV) : Prop where
  kvs : KVsOk rv c (s.ring.map (·.kv) ++ new)
  size : s.byteSize = weights rv (s.ring.map (·.kv))

/-- What is held stays held. -/
def Mono (c : Counts) (kvs : List KV) (c' : Counts) (kvs' : List KV) : Prop :=
  ∀ a, Held c (cells kvs) a → Held c' (cells kvs') a

theorem Mono.trans {c c' c'' : Counts} {x y z : List KV} (h : Mono c x c' y) (h' : Mono c' y c'' z) : Mono c x c'' z :=
  fun a ha => h' a (h a ha)

theorem popOne_cells {rv : Bool} {c c' : Counts} {s s' : Lru} {new : List KV} {e : Entry} (h : RingCells rv c s new)
    (hp : popOne c s = some (c', s', e)) :
    RingCells rv c' s' new ∧ Mono c (s.ring.map (·.kv) ++ new) c' (s'.ring.map (·.kv) ++ new) := by
  unfold popOne at hp
  cases hr : s.ring with
  | nil => rw [hr] at hp; simp at hp
  | cons x rest =>
    rw [hr] at hp
    simp only [Option.some.injEq, Prod.mk.injEq] at hp
    obtain ⟨rfl, rfl, rfl⟩ := hp
    have h1 := h.kvs
    have h2 := h.size
    rw [hr] at h1 h2
    simp only [List.map_cons, List.cons_append] at h1 h2
    refine ⟨⟨kvsOk_done h1, ?_⟩, fun a ha => ?_⟩
    · simp only
      rw [h2, byteSize_ok h1 (List.mem_cons_self ..)]
      simp [weights]
    · simp only [List.map_cons, List.cons_append] at ha
      exact held_done ha

theorem popWhile_cells {rv : Bool} (cond : Counts → Lru → Bool) (n : Nat) : ∀ {c : Counts} {s : Lru} {new : List KV} (ps : List Entry),
    RingCells rv c s new → RingCells rv (popWhile cond n c s ps).counts (popWhile cond n c s ps).lru new ∧
      Mono c (s.ring.map (·.kv) ++ new) (popWhile cond n c s ps).counts ((popWhile cond n c s ps).lru.ring.map (·.kv) ++ new) := by
  induction n with
  | zero => intro c s new ps h; exact ⟨h, fun _ ha => ha⟩
  | succ n ih =>
    intro c s new ps h
    rw [popWhile]
    split
    · split
      · exact ⟨h, fun _ ha => ha⟩
      · rename_i c' s' e hp
        obtain ⟨h1, m1⟩ := popOne_cells h hp
        obtain ⟨h2, m2⟩ := ih (ps ++ [e]) h1
        exact ⟨h2, m1.trans m2⟩
    · exact ⟨h, fun _ ha => ha⟩

theorem reserve_cells {rv : Bool} {c : Counts} {s : Lru} {new : List KV} (h : RingCells rv c s new) (kv : KV) (k : Int) :
    RingCells rv (reserve kv k c s).counts (reserve kv k c s).lru new ∧
      Mono c (s.ring.map (·.kv) ++ new) (reserve kv k c s).counts ((reserve kv k c s).lru.ring.map (·.kv) ++ new) := by
  have hi : RingCells rv (reserveItems k c s).counts (reserveItems k c s).lru new ∧
      Mono c (s.ring.map (·.kv) ++ new) (reserveItems k c s).counts ((reserveItems k c s).lru.ring.map (·.kv) ++ new) := by
    unfold reserveItems
    split
    · exact ⟨h, fun _ ha => ha⟩
    · exact popWhile_cells _ _ [] h
  unfold reserve
  split
  · exact ⟨h, fun _ ha => ha⟩
  · simp only
    split
    · obtain ⟨h1, m1⟩ := hi
      unfold reserveBytes
      split
      · exact ⟨h1, m1⟩
      · obtain ⟨h2, m2⟩ := popWhile_cells (fun c s => decide (s.byteSize + kv.byteSize c > _)) _ _ h1
        exact ⟨h2, m1.trans m2⟩
    · exact hi

theorem insertVal_cells {rv : Bool} {st st' : Storage} {kv : KV} {ps : List Entry} {i : Option Int}
    (h : RingCells rv st.counts st.lru [kv]) (hi : insertVal st kv = .ok (st', ps, i)) :
    RingCells rv st'.counts st'.lru [] ∧ st'.static = st.static ∧
      Mono st.counts (st.lru.ring.map (·.kv) ++ [kv]) st'.counts (st'.lru.ring.map (·.kv)) := by
  obtain ⟨h1, m1⟩ := reserve_cells h kv 1
  unfold insertVal at hi
  generalize reserve kv 1 st.counts st.lru = r at h1 m1 hi
  simp only at hi
  split at hi
  · simp only [bind, Except.bind] at hi
    split at hi
    · simp at hi
    · rename_i s' es
      split at hi
      · simp at hi
      · simp only [pure, Except.pure, Except.ok.injEq, Prod.mk.injEq] at hi
        obtain ⟨rfl, rfl, rfl⟩ := hi
        have hs' := store_ok es
        have hring : s'.ring.map (·.kv) = r.lru.ring.map (·.kv) ++ [kv] := by rw [hs']; simp
        refine ⟨⟨?_, ?_⟩, rfl, ?_⟩
        · simp only [hring, List.append_nil]
          exact h1.kvs
        · simp only [hring]
          rw [hs']
          simp only
          rw [h1.size, byteSize_ok h1.kvs (kv := kv) (by simp)]
          simp [weights]
        · simp only [hring]
          exact m1
  · simp only [Except.ok.injEq, Prod.mk.injEq] at hi
    obtain ⟨rfl, rfl, rfl⟩ := hi
    refine ⟨⟨?_, h1.size⟩, rfl, m1.trans fun a ha => held_init ha⟩
    simpa using kvsOk_init h1.kvs

theorem insertVal_limit {st st' : Storage} {kv : KV} {ps : List Entry} {i : Option Int} {m : Int}
    (h : st.lru.maxBytes = some m ∧ st.lru.byteSize ≤ max m 0) (hi : insertVal st kv = .ok (st', ps, i)) :
    st'.lru.maxBytes = some m ∧ st'.lru.byteSize ≤ max m 0 := by
  obtain ⟨hp, _⟩ := reserve_spec kv st.counts st.lru 1
  unfold insertVal at hi
  generalize reserve kv 1 st.counts st.lru = r at hp hi
  have h1 : r.lru.maxBytes = some m := hp.same.bytes.trans h.1
  have h2 : r.lru.byteSize ≤ max m 0 := hp.bytes.trans h.2
  simp only at hi
  split at hi
  · simp only [bind, Except.bind] at hi
    split at hi
    · simp at hi
    · rename_i s' es
      split at hi
      · simp at hi
      · simp only [pure, Except.pure, Except.ok.injEq, Prod.mk.injEq] at hi
        obtain ⟨rfl, rfl, rfl⟩ := hi
        have hb := (store_bounds es).2 m h1
        refine ⟨(store_same es).bytes.trans h1, ?_⟩
        have hs' := store_ok es
        change s'.byteSize ≤ _
        rw [hs']
        simp only at hb ⊢
        omega
  · simp only [Except.ok.injEq, Prod.mk.injEq] at hi
    obtain ⟨rfl, rfl, rfl⟩ := hi
    exact ⟨h1, h2⟩

/-! ### The codec -/

/-- The counts of a storage are right. -/
structure StoreCells (rv : Bool) (m : Int) (st : Storage) : Prop where
  ring : RingCells rv st.counts st.lru []
  limit : st.lru.maxBytes = some m ∧ st.lru.byteSize ≤ max m 0
  static : ∀ e ∈ st.static.ring, Held st.counts (cells (st.lru.ring.map (·.kv))) e.kv.kcell ∧
    Held st.counts (cells (st.lru.ring.map (·.kv))) e.kv.vcell

/-- The cells of a storage that are held. -/
def Storage.Held (st : Storage) (a : Nat) : Prop := Delta2.Held st.counts (cells (st.lru.ring.map (·.kv))) a

/-- A KV that can be stored. -/
def Storable (rv : Bool) (st : Storage) (kv : KV) : Prop := st.Held kv.kcell ∧ (rv = true → st.Held kv.vcell)

theorem lookup_storable {rv : Bool} {m : Int} {st : Storage} (h : StoreCells rv m st) {i : Int} {e : Entry}
    (hl : lookupFromIdx st i = .ok e) : Storable rv st e.kv := by
  have hmem : e ∈ st.static.ring ∨ e ∈ st.lru.ring := by
    have key : ∀ s : Lru, lookup s i = .ok e → e ∈ s.ring := by
      intro s hs
      simp only [lookup, bind, Except.bind] at hs
      split at hs
      · simp at hs
      · split at hs
        · simp at hs
        · rename_i x hx
          split at hs
          · simp at hs
          · simp only [pure, Except.pure, Except.ok.injEq] at hs
            subst hs
            exact pyIndex_mem hx
    unfold lookupFromIdx at hl
    split at hl
    · exact .inl (key _ hl)
    · exact .inr (key _ hl)
  rcases hmem with hm | hm
  · exact ⟨(h.static e hm).1, fun _ => (h.static e hm).2⟩
  · have hk := h.ring.kvs
    rw [List.append_nil] at hk
    obtain ⟨h1, h2⟩ := hk e.kv (List.mem_map_of_mem hm)
    refine ⟨h1, fun hrv => ?_⟩
    subst hrv
    exact h2

theorem storeKV_cells {cfg : Config} {s s' : Codec} {kv : KV} {i : Option Int} (h : StoreCells cfg.refcntVals cfg.maxBytes s.storage)
    (hk : Storable cfg.refcntVals s.storage kv) (e : storeKV cfg s kv = .ok (s', i)) :
    StoreCells cfg.refcntVals cfg.maxBytes s'.storage ∧ ∀ a, s.storage.Held a → s'.storage.Held a := by
  have hkv := h.ring.kvs
  rw [List.append_nil] at hkv
  obtain ⟨h1, m1⟩ := copy_ok hkv hk.1 hk.2
  simp only [storeKV] at e
  have hc : (if cfg.refcntVals = true then kvShare s.storage.counts kv else kvShareKey s.storage.counts kv kv.val) =
      copyKV cfg.refcntVals s.storage.counts kv := rfl
  rw [hc] at e
  generalize copyKV cfg.refcntVals s.storage.counts kv = r at h1 m1 e
  simp only [bind, Except.bind] at e
  split at e
  · simp at e
  · rename_i x hx
    obtain ⟨st', ps, j⟩ := x
    simp only [pure, Except.pure, Except.ok.injEq, Prod.mk.injEq] at e
    obtain ⟨rfl, rfl⟩ := e
    obtain ⟨h2, hs, m2⟩ := insertVal_cells (rv := cfg.refcntVals)
      (st := { counts := r.1, static := s.storage.static, lru := s.storage.lru }) ⟨h1, h.ring.size⟩ hx
    have hm : ∀ a, s.storage.Held a → st'.Held a := fun a ha => m2 a (m1 a ha)
    refine ⟨⟨h2, insertVal_limit
      (st := { counts := r.1, static := s.storage.static, lru := s.storage.lru }) h.limit hx, fun en hen => ?_⟩, hm⟩
    simp only at hen
    rw [hs] at hen
    exact ⟨hm _ (h.static en hen).1, hm _ (h.static en hen).2⟩

theorem storable_mono {rv : Bool} {st st' : Storage} (hm : ∀ a, st.Held a → st'.Held a) {kv : KV} (h : Storable rv st kv) :
    Storable rv st' kv := ⟨hm _ h.1, fun hr => hm _ (h.2 hr)⟩

theorem changeGroup_storage (s : Codec) (gid : Nat) (f : List Int → List Int) : (changeGroup s gid f).storage = s.storage := by
  unfold changeGroup
  split <;> rfl

theorem addIdx_storage (s : Codec) (gid : Nat) (i : Option Int) : (addIdx s gid i).storage = s.storage := by
  cases i
  · rfl
  · exact changeGroup_storage ..

theorem storeLater_cells {cfg : Config} {gid : Nat} (kvs : List KV) : ∀ {s s' : Codec}, StoreCells cfg.refcntVals cfg.maxBytes s.storage →
    (∀ kv ∈ kvs, Storable cfg.refcntVals s.storage kv) → storeLater cfg gid kvs s = .ok s' →
    StoreCells cfg.refcntVals cfg.maxBytes s'.storage ∧ ∀ a, s.storage.Held a → s'.storage.Held a := by
  induction kvs with
  | nil =>
    intro s s' h _ e
    simp only [storeLater, Except.ok.injEq] at e
    subst e
    exact ⟨h, fun _ ha => ha⟩
  | cons kv kvs ih =>
    intro s s' h hk e
    simp only [storeLater, bind, Except.bind] at e
    split at e
    · simp at e
    · rename_i x hx
      obtain ⟨s1, i⟩ := x
      obtain ⟨h1, m1⟩ := storeKV_cells h (hk kv (by simp)) hx
      have hst : (if cfg.implicitAdd = true then addIdx s1 gid i else s1).storage = s1.storage := by
        split
        · exact addIdx_storage ..
        · rfl
      simp only at e
      obtain ⟨h2, m2⟩ := ih (by rw [hst]; exact h1)
        (by intro y hy; rw [hst]; exact storable_mono m1 (hk y (by simp [hy]))) e
      exact ⟨h2, fun a ha => m2 a (by rw [hst]; exact m1 a ha)⟩

theorem adjustLater_cells {cfg : Config} {gid : Nat} (kvs : List (KV × Int)) : ∀ {s s' : Codec}, StoreCells cfg.refcntVals cfg.maxBytes s.storage →
    (∀ kv ∈ kvs, Storable cfg.refcntVals s.storage kv.1) → adjustLater cfg gid kvs s = .ok s' →
    StoreCells cfg.refcntVals cfg.maxBytes s'.storage := by
  induction kvs with
  | nil =>
    intro s s' h _ e
    simp only [adjustLater, Except.ok.injEq] at e
    subst e
    exact h
  | cons kv kvs ih =>
    intro s s' h hk e
    obtain ⟨kv, old⟩ := kv
    simp only [adjustLater, bind, Except.bind] at e
    split at e
    · simp at e
    · rename_i x hx
      obtain ⟨s1, i⟩ := x
      have hst := changeGroup_storage s gid (fun hg => hg.filter (· ≠ old))
      obtain ⟨h1, m1⟩ := storeKV_cells (by rw [hst]; exact h) (by rw [hst]; exact hk (kv, old) (by simp)) hx
      rw [hst] at m1
      simp only at e
      exact ih (by rw [addIdx_storage]; exact h1)
        (by intro y hy; rw [addIdx_storage]; exact storable_mono m1 (hk y (by simp [hy]))) e

theorem execOp_cells {rv : Bool} {m : Int} {e e' : Exec} {op : Op} (h : StoreCells rv m e.storage)
    (hl : ∀ kv ∈ e.later, Storable rv e.storage kv) (hx : execOp e op = .ok e') :
    StoreCells rv m e'.storage ∧ (∀ kv ∈ e'.later, Storable rv e'.storage kv) ∧ e'.storage.lru = e.storage.lru ∧
      (e'.storage.static = e.storage.static) ∧ ∀ a, e.storage.Held a → e'.storage.Held a := by
  have hkv := h.ring.kvs
  rw [List.append_nil] at hkv
  have grow : ∀ c' : Counts, KVsOk rv c' (e.storage.lru.ring.map (·.kv)) →
      (∀ a, e.storage.Held a → Storage.Held { e.storage with counts := c' } a) →
      StoreCells rv m { e.storage with counts := c' } := by
    intro c' hc hm
    refine ⟨⟨by simpa using hc, h.ring.size⟩, h.limit, fun en hen => ⟨hm _ (h.static en hen).1, hm _ (h.static en hen).2⟩⟩
  unfold execOp at hx
  cases hoc : op.opcode with
  | stoggl =>
    simp only [hoc, bind, Except.bind] at hx
    split at hx
    · simp at hx
    · simp only [pure, Except.pure, Except.ok.injEq] at hx
      subst hx
      exact ⟨h, hl, rfl, rfl, fun _ ha => ha⟩
  | etoggl =>
    simp only [hoc, bind, Except.bind] at hx
    split at hx
    · simp at hx
    · simp only [pure, Except.pure, Except.ok.injEq] at hx
      subst hx
      exact ⟨h, hl, rfl, rfl, fun _ ha => ha⟩
  | strang =>
    simp only [hoc, bind, Except.bind] at hx
    split at hx
    · simp at hx
    · split at hx
      · simp at hx
      · split at hx
        · simp at hx
        · simp only [pure, Except.pure, Except.ok.injEq] at hx
          subst hx
          exact ⟨h, hl, rfl, rfl, fun _ ha => ha⟩
  | etrang =>
    simp only [hoc, bind, Except.bind] at hx
    split at hx
    · simp at hx
    · split at hx
      · simp at hx
      · split at hx
        · simp at hx
        · simp only [pure, Except.pure, Except.ok.injEq] at hx
          subst hx
          exact ⟨h, hl, rfl, rfl, fun _ ha => ha⟩
  | sclone =>
    simp only [hoc, bind, Except.bind] at hx
    split at hx
    · simp at hx
    · split at hx
      · simp at hx
      · rename_i val _
        split at hx
        · simp at hx
        · rename_i entry hent
          simp only [pure, Except.pure, Except.ok.injEq] at hx
          subst hx
          obtain ⟨k1, k2⟩ := lookup_storable h hent
          have s1 := kvsOk_share hkv k1
          have s2 := kvsOk_new s1
          have m : ∀ a, e.storage.Held a → Storage.Held { e.storage with counts := (newCell (shareCell e.storage.counts entry.kv.kcell)).1 } a :=
            fun a ha => held_new (held_share ha)
          refine ⟨grow _ s2 m, fun kv hkv' => ?_, rfl, rfl, m⟩
          rcases List.mem_append.1 hkv' with hx | hx
          · exact storable_mono m (hl kv hx)
          · rw [List.mem_singleton.1 hx]
            exact ⟨m _ k1, fun _ => new_held s1⟩
  | eclone =>
    simp only [hoc, bind, Except.bind] at hx
    split at hx
    · simp at hx
    · split at hx
      · simp at hx
      · split at hx
        · simp at hx
        · simp only [pure, Except.pure, Except.ok.injEq] at hx
          subst hx
          exact ⟨h, hl, rfl, rfl, fun _ ha => ha⟩
  | skvsto =>
    simp only [hoc, bind, Except.bind] at hx
    split at hx
    · simp at hx
    · split at hx
      · simp at hx
      · simp only [pure, Except.pure, Except.ok.injEq] at hx
        subst hx
        have s1 := kvsOk_new hkv
        have s2 := kvsOk_new s1
        have m : ∀ a, e.storage.Held a → Storage.Held { e.storage with counts := (newCell (newCell e.storage.counts).1).1 } a :=
          fun a ha => held_new (held_new ha)
        refine ⟨grow _ s2 m, fun kv hkv' => ?_, rfl, rfl, m⟩
        rcases List.mem_append.1 hkv' with hx | hx
        · exact storable_mono m (hl kv hx)
        · rw [List.mem_singleton.1 hx]
          exact ⟨held_new (new_held hkv), fun _ => new_held s1⟩
  | ekvsto =>
    simp only [hoc, bind, Except.bind] at hx
    split at hx
    · simp at hx
    · split at hx
      · simp at hx
      · simp only [pure, Except.pure, Except.ok.injEq] at hx
        subst hx
        exact ⟨h, hl, rfl, rfl, fun _ ha => ha⟩

theorem execOps_cells {rv : Bool} {m : Int} (ops : List Op) : ∀ {e e' : Exec}, StoreCells rv m e.storage →
    (∀ kv ∈ e.later, Storable rv e.storage kv) → execOps ops e = .ok e' →
    StoreCells rv m e'.storage ∧ (∀ kv ∈ e'.later, Storable rv e'.storage kv) ∧ e'.storage.lru = e.storage.lru := by
  induction ops with
  | nil =>
    intro e e' h hl hx
    simp only [execOps, Except.ok.injEq] at hx
    subst hx
    exact ⟨h, hl, rfl⟩
  | cons op ops ih =>
    intro e e' h hl hx
    simp only [execOps, bind, Except.bind] at hx
    split at hx
    · simp at hx
    · rename_i e1 h1
      obtain ⟨a1, a2, a3, _⟩ := execOp_cells h hl h1
      obtain ⟨b1, b2, b3⟩ := ih a1 a2 hx
      exact ⟨b1, b2, b3.trans a3⟩

theorem lookupAll_storable {rv : Bool} {m : Int} {st : Storage} (h : StoreCells rv m st) (is : List Int) : ∀ {l : List (KV × Int)},
    lookupAll st is = .ok l → ∀ kv ∈ l, Storable rv st kv.1 := by
  induction is with
  | nil =>
    intro l hl
    simp only [lookupAll, Except.ok.injEq] at hl
    subst hl
    simp
  | cons i is ih =>
    intro l hl
    simp only [lookupAll, bind, Except.bind] at hl
    split at hl
    · simp at hl
    · rename_i e he
      split at hl
      · simp at hl
      · rename_i es hes
        simp only [pure, Except.pure, Except.ok.injEq] at hl
        subst hl
        intro kv hkv
        rcases List.mem_cons.1 hkv with rfl | hkv
        · exact lookup_storable h he
        · exact ih hes kv hkv

/-- Executing any operations keeps the counts right. -/
theorem execute_cells {cfg : Config} {ord : List Int → List Int} {s s' : Codec} {ops : List Op} {gid : Nat} {out : Dict Str Str}
    (h : StoreCells cfg.refcntVals cfg.maxBytes s.storage) (hx : execute cfg ord s ops gid = .ok (s', out)) :
    StoreCells cfg.refcntVals cfg.maxBytes s'.storage := by
  unfold execute at hx
  have hst := findOrMake_storage s gid
  generalize findOrMake s gid = f at hst hx
  simp only [bind, Except.bind] at hx
  split at hx
  · simp at hx
  · split at hx
    · simp at hx
    · rename_i e he
      obtain ⟨h1, hl, _⟩ := execOps_cells _ (by simp only [hst]; exact h) (by simp) he
      split at hx
      · simp at hx
      · split at hx
        · simp at hx
        · rename_i adj hadj
          have hadj' : ∀ kv ∈ adj, Storable cfg.refcntVals e.storage kv.1 := by
            unfold adjustList at hadj
            split at hadj
            · exact lookupAll_storable h1 _ hadj
            · simp only [Except.ok.injEq] at hadj
              subst hadj
              simp
          split at hx
          · simp at hx
          · rename_i s1 hs1
            obtain ⟨h2, m2⟩ := storeLater_cells _ (by exact h1) hl hs1
            split at hx
            · simp at hx
            · rename_i s2 hs2
              simp only [pure, Except.pure, Except.ok.injEq, Prod.mk.injEq] at hx
              obtain ⟨rfl, _⟩ := hx
              exact adjustLater_cells _ h2 (fun kv hkv => storable_mono m2 (hadj' kv hkv)) hs2

theorem init_cells {cfg : Config} {s : Codec} (h : Codec.init cfg = .ok s) : StoreCells cfg.refcntVals cfg.maxBytes s.storage := by
  obtain ⟨st, e, hok, hr, hb, hc, hcell⟩ := storage_init cfg.maxBytes cfg.maxEntries cfg.maxIndex
  simp only [Codec.init, bind, Except.bind, e, pure, Except.pure, Except.ok.injEq] at h
  subst h
  refine ⟨⟨?_, ?_⟩, ⟨hok.maxBytes, hok.bytes⟩, fun en hen => ?_⟩
  · simp [hr, KVsOk]
  · simp [hr, hb, weights]
  · have hm : (en.kv.kcell, en.kv.vcell) ∈ (List.range 65).map (fun i => (2 * i, 2 * i + 1)) := by
      rw [← hcell]
      exact List.mem_map_of_mem (f := fun e : Entry => (e.kv.kcell, e.kv.vcell)) hen
    simp only [List.mem_map, List.mem_range, Prod.mk.injEq] at hm
    obtain ⟨i, hi, h1, h2⟩ := hm
    have key : ∀ a, a < 130 → Held st.counts (cells (st.lru.ring.map (·.kv))) a := by
      intro a ha
      refine ⟨by rw [hc, List.length_replicate]; exact ha, ?_⟩
      rw [hc, hr, List.getD_eq_getElem?_getD, List.getElem?_replicate, if_pos ha]
      simp [cells]
    exact ⟨key _ (by omega), key _ (by omega)⟩

end Verif.Delta2
