import Verif.Delta2.StorageLemmas
import Verif.Delta2.Ids
import Mathlib.Data.List.Perm.Basic
/-
C25, C26, C30 and C32: the ring buffer of delta2, the translation of indices, and group ids.
-/
namespace Verif.Props
open Verif Verif.Delta2

/-! ### C25 -/

/-- An LruStorage as constructed. -/
def newLru (maxBytes maxItems maxSeq : Option Int) (offset : Nat) : Lru := { maxBytes := maxBytes, maxItems := maxItems, maxSeq := maxSeq, offset := offset }

/-- C25: after every history, Lookup finds exactly the entries in the ring, each under its number, and no two have
the same number.  (If numbers are reused, they must suffice for the permitted number of items, which must
not be 0; see `C25_zero_false`.) -/
theorem C25_lookup (maxBytes maxItems maxSeq : Option Int) (offset : Nat)
    (hnum : ∀ m, maxSeq = some m → ∃ k, maxItems = some k ∧ k ≠ 0 ∧ k ≤ m - offset)
    (c : Counts) (ops : List LruOp) :
    let s := (lruRun (c, newLru maxBytes maxItems maxSeq offset) ops).2
    (s.ring.map (·.seq)).Nodup ∧ ∀ n e, lookup s n = .ok e ↔ e ∈ s.ring ∧ e.seq = n := by
  obtain ⟨_, h, _, _⟩ := lruRun_ok ops c (newLru maxBytes maxItems maxSeq offset) hnum (RingOk.init rfl rfl)
    ⟨by simp [newLru], by simp [newLru]⟩
  exact ⟨h.nodup, lookup_iff h⟩

/-- C25, first in first out: an operation removes some of the oldest entries, or adds one at the end with the
next number, or changes nothing. -/
theorem C25_fifo (c : Counts) (s : Lru) (op : LruOp) :
    (∃ k, (lruStep (c, s) op).2.ring = s.ring.drop k) ∨
    ∃ kv, op = .store kv ∧ (lruStep (c, s) op).2.ring = s.ring ++ [{ kv := kv, seq := s.seqNum }] := by
  rcases lruStep_spec c s op with ⟨ps, hp⟩ | ⟨kv, s', ho, he, hs⟩
  · exact .inl ⟨ps.length, by rw [hp.ring]; simp⟩
  · exact .inr ⟨kv, ho, by rw [hs, store_ok he]⟩

/-- C25, PopOne removes the oldest entry. -/
theorem C25_pop (c : Counts) (s : Lru) : (lruStep (c, s) .pop).2.ring = s.ring.tail := by
  simp only [lruStep, popOne]
  cases h : s.ring <;> simp [h]

/-- A KV for examples. -/
def aKV (n : Nat) : KV := { key := [107], kcell := 0, val := List.replicate n 97, vcell := n }

/-- Four numbers, three items: six stores with the evictions they need, over the end of the numbers. -/
example : ((lruRun ([], newLru (some 9) (some 3) (some 9) 5) ((List.range 6).flatMap fun n =>
    [.reserve (aKV n) 1, .store (aKV n)])).2.ring.map fun e => (e.kv.val.length, e.seq)) = [(5, 6)] := by decide +kernel
example : ((lruRun ([], newLru none (some 3) (some 9) 5) ((List.range 6).flatMap fun n =>
    [.reserve (aKV n) 1, .store (aKV n)])).2.ring.map fun e => (e.kv.val.length, e.seq)) =
    [(3, 8), (4, 5), (5, 6)] := by decide +kernel

/-- With `max_items` 0 Store does not check anything, and numbers collide: the two entries have the number 0, and
the second is never found. -/
theorem C25_zero_false :
    let s := (lruRun ([], newLru none (some 0) (some 1) 0) [.store (aKV 1), .store (aKV 2)]).2
    s.ring = [{ kv := aKV 1, seq := 0 }, { kv := aKV 2, seq := 0 }] ∧ lookup s 0 = .ok { kv := aKV 1, seq := 0 } := by
  decide +kernel

/-! ### C26 -/

/-- C26: after any history there are not more than `max_items` items (if this is not 0) and the accounted size is not
above `max_bytes`; negative limits count as 0. -/
theorem C26_limits (maxBytes maxItems maxSeq : Option Int) (offset : Nat) (c : Counts) (ops : List LruOp) :
    let s := (lruRun (c, newLru maxBytes maxItems maxSeq offset) ops).2
    (∀ m, maxItems = some m → m ≠ 0 → (s.ring.length : Int) ≤ max m 0) ∧
    (∀ m, maxBytes = some m → s.byteSize ≤ max m 0) := by
  obtain ⟨h, hs⟩ := lruRun_limits ops c (newLru maxBytes maxItems maxSeq offset) ⟨by simp [newLru], by simp [newLru]⟩
  exact ⟨fun m hm => h.items m (hs.items.trans hm), fun m hm => h.bytes m (hs.bytes.trans hm)⟩

/-- C26, Store after a successful Reserve for the same entry never raises. -/
theorem C26_reserve_store (kv : KV) (c : Counts) (s : Lru) (hok : (reserve kv 1 c s).ok = true) :
    ∃ s', (reserve kv 1 c s).lru.store (reserve kv 1 c s).counts kv = .ok s' := store_after_reserve kv c s hok

/-- C26 for the codec's storage, all limits: InsertVal never raises, whatever happens to the reference
counts, and both limits are respected. -/
theorem C26_storage (maxBytes maxEntries maxIndex : Int) (hnum : maxEntries ≤ maxIndex - 65) (ops : List StorageOp) :
    ∃ st st', Storage.init maxBytes maxEntries maxIndex = .ok st ∧ storageRun st ops = .ok st' ∧
      (st'.lru.ring.length : Int) ≤ max maxEntries 0 ∧ st'.lru.byteSize ≤ max maxBytes 0 := by
  obtain ⟨st, e, h, _⟩ := storage_init maxBytes maxEntries maxIndex
  obtain ⟨st', e', h'⟩ := storageRun_ok hnum ops st h
  exact ⟨st, st', e, e', h'.entries, h'.bytes⟩

/-- C26 is false of Store alone with `max_items` 0. -/
theorem C26_zero_false :
    (lruRun ([], newLru none (some 0) none 0) [.store (aKV 1)]).2.ring.length = 1 := by decide +kernel

example : (reserve (aKV 3) 1 [] (newLru (some 5) (some 2) none 0)).ok = true := by decide +kernel
example : (((Storage.init 5 2 255).bind fun st => storageRun st [.insert (aKV 1), .insert (aKV 2), .insert (aKV 3)]).map
    fun st => (st.lru.ring.map (·.seq), st.lru.byteSize)) = .ok ([67], 4) := by decide +kernel

/-! ### C30 -/

/-- C30: in every storage that can be reached, going from an index (of one of the 65 static entries, or of an entry in the
ring) to the distance from the newest entry and back gives the index again, the distance being below the number
of entries; and vice versa. -/
theorem C30_bijection (maxBytes maxEntries maxIndex : Int) (hnum : maxEntries ≤ maxIndex - 65) (ops : List StorageOp) :
    ∃ st st', Storage.init maxBytes maxEntries maxIndex = .ok st ∧ storageRun st ops = .ok st' ∧
      (∀ i : Int, ((0 ≤ i ∧ i < 65) ∨ ∃ e ∈ st'.lru.ring, e.seq = i) →
        ∃ j, hgIdxToLruIdx st' i = .ok j ∧ 0 ≤ j ∧ j < st'.lru.ring.length + 65 ∧ lruIdxToHgIdx st' j = .ok i) ∧
      (∀ j : Int, 0 ≤ j → j < st'.lru.ring.length + 65 →
        ∃ i, lruIdxToHgIdx st' j = .ok i ∧ ((0 ≤ i ∧ i < 65) ∨ ∃ e ∈ st'.lru.ring, e.seq = i) ∧
          hgIdxToLruIdx st' i = .ok j) := by
  obtain ⟨st, e, h, _⟩ := storage_init maxBytes maxEntries maxIndex
  obtain ⟨st', e', h'⟩ := storageRun_ok hnum ops st h
  exact ⟨st, st', e, e', fun i hi => toLru_spec h' hi, fun j h0 hj => toHg_spec h' h0 hj⟩

/-- C30, distances: 0 for the newest entry, and 1 more for the one before; the static entries follow. -/
theorem C30_distance (maxBytes maxEntries maxIndex : Int) (hnum : maxEntries ≤ maxIndex - 65) (ops : List StorageOp) :
    ∃ st st', Storage.init maxBytes maxEntries maxIndex = .ok st ∧ storageRun st ops = .ok st' ∧
      (∀ (k : Nat) (e : Entry), st'.lru.ring.reverse[k]? = some e → lruIdxToHgIdx st' k = .ok e.seq) ∧
      (∀ k : Nat, k < 65 → lruIdxToHgIdx st' (st'.lru.ring.length + k : Nat) = .ok (64 - k)) := by
  obtain ⟨st, e, h, _⟩ := storage_init maxBytes maxEntries maxIndex
  obtain ⟨st', e', h'⟩ := storageRun_ok hnum ops st h
  refine ⟨st, st', e, e', fun k x hx => ?_, fun k hk => ?_⟩
  · obtain ⟨hlt, _⟩ := List.getElem?_eq_some_iff.1 hx
    rw [List.length_reverse] at hlt
    rw [List.getElem?_reverse hlt] at hx
    simp only [lruIdxToHgIdx]
    rw [if_pos (by omega)]
    simp only [bind, Except.bind, pyIndex_neg hx hlt, pure, Except.pure]
  · simp only [lruIdxToHgIdx, h'.len]
    rw [if_neg (by omega)]
    congr 1
    push_cast
    omega

/-- Numbers wrapped around: the entry with the number 65 is newer than the one with 66. -/
example : (((Storage.init 50 2 67).bind fun st => storageRun st [.insert (aKV 1), .insert (aKV 2), .insert (aKV 3)]).bind
    fun st => (hgIdxToLruIdx st 65).bind fun a => (hgIdxToLruIdx st 66).bind fun b => (hgIdxToLruIdx st 64).map fun c => (a, b, c)) =
    .ok (0, 1, 2) := by decide +kernel

/-! ### C32 -/

/-- Histories of an IDStore: the store, the ids handed out and not given back, and the number of requests; only ids handed
out are given back. -/
inductive IdRun (maxId : Nat) : IdStore → List Nat → Nat → Prop
  | start : IdRun maxId { maxId := maxId } [] 0
  | get (ord : List Nat → List Nat) (s : IdStore) (out : List Nat) (n : Nat) : (∀ l, (ord l).Perm l) → IdRun maxId s out n →
    IdRun maxId (getNext ord s).1 (out ++ [(getNext ord s).2]) (n + 1)
  | done (s : IdStore) (out : List Nat) (n : Nat) (id : Nat) : id ∈ out → IdRun maxId s out n →
    IdRun maxId (doneWithId s id) (out.erase id) n

/-- The ids in use and those given back are 1 to the counter. -/
structure IdsOk (maxId : Nat) (s : IdStore) (out : List Nat) (n : Nat) : Prop where
  max : s.maxId = maxId
  next : s.next ≤ n
  nodup : (s.ids ++ out).Nodup
  mem : ∀ i, i ∈ s.ids ++ out ↔ 1 ≤ i ∧ i ≤ s.next

theorem getNext_ok {maxId : Nat} {s : IdStore} {out : List Nat} {n : Nat} (h : IdsOk maxId s out n)
    (ord : List Nat → List Nat) (hord : ∀ l, (ord l).Perm l) :
    (getNext ord s).2 ∉ out ∧ (n + 1 < maxId → IdsOk maxId (getNext ord s).1 (out ++ [(getNext ord s).2]) (n + 1)) := by
  have hp := hord s.ids
  simp only [getNext]
  cases ho : ord s.ids with
  | cons x xs =>
    have hx : x ∈ s.ids := hp.subset (by rw [ho]; simp)
    have hperm : (s.ids.erase x ++ (out ++ [x])).Perm (s.ids ++ out) := by
      have h1 : (s.ids.erase x ++ (out ++ [x])).Perm (x :: (s.ids.erase x ++ out)) := by
        rw [← List.append_assoc]
        exact List.perm_append_singleton _ _
      exact h1.trans ((List.perm_cons_erase hx).symm.append_right out)
    refine ⟨fun hxo => ?_, fun _ => ⟨h.max, h.next.trans (by omega), hperm.nodup_iff.2 h.nodup,
      fun i => (hperm.mem_iff).trans (h.mem i)⟩⟩
    exact (List.nodup_append.1 h.nodup).2.2 x hx x hxo rfl
  | nil =>
    rw [ho] at hp
    have hids : s.ids = [] := hp.symm.eq_nil
    have hnext := h.next
    by_cases hc : s.maxId ≠ 0 ∧ s.next + 1 ≥ s.maxId
    · simp only [if_pos hc]
      rw [h.max] at hc
      refine ⟨fun h0 => ?_, fun hlt => by omega⟩
      have := (h.mem 0).1 (by simp [h0])
      omega
    · simp only [if_neg hc]
      refine ⟨fun h0 => ?_, fun hlt => ⟨h.max, by simp only; omega, ?_, ?_⟩⟩
      · have := (h.mem (s.next + 1)).1 (by simp [h0])
        omega
      · have hnd := h.nodup
        rw [hids, List.nil_append] at hnd
        simp only [hids, List.nil_append]
        rw [List.nodup_append]
        refine ⟨hnd, by simp, fun a ha b hb => ?_⟩
        simp only [List.mem_singleton] at hb
        subst hb
        have := (h.mem a).1 (by simp [ha])
        omega
      · intro i
        have hm := h.mem i
        simp only [hids, List.nil_append, List.mem_append, List.mem_singleton] at hm ⊢
        rw [hm]
        omega

theorem idRun_ok {maxId : Nat} {s : IdStore} {out : List Nat} {n : Nat} (h : IdRun maxId s out n) :
    n < maxId → IdsOk maxId s out n := by
  induction h with
  | start => intro _; exact ⟨rfl, by simp, by simp, by intro i; simp; omega⟩
  | get ord s out n hord hr ih =>
    intro hn
    exact (getNext_ok (ih (by omega)) ord hord).2 (by omega)
  | done s out n id hid hr ih =>
    intro hn
    have h := ih hn
    have hni : id ∉ s.ids := fun hi => (List.nodup_append.1 h.nodup).2.2 id hi id hid rfl
    have hperm : (s.ids ++ [id] ++ out.erase id).Perm (s.ids ++ out) := by
      rw [List.append_assoc]
      exact (List.perm_cons_erase hid).symm.append_left s.ids
    simp only [doneWithId, if_neg hni]
    exact ⟨h.max, h.next, hperm.nodup_iff.2 h.nodup, fun i => hperm.mem_iff.trans (h.mem i)⟩

/-- C32: each of the first `max_id` requests (255 for the codec) gets an id that is not in use.

Missing: the requests after these; `C32_false` shows that they may get an id in use. -/
theorem C32_distinct_partial (maxId : Nat) (s : IdStore) (out : List Nat) (n : Nat) (h : IdRun maxId s out n)
    (hn : n < maxId) (ord : List Nat → List Nat) (hord : ∀ l, (ord l).Perm l) : (getNext ord s).2 ∉ out :=
  (getNext_ok (idRun_ok h hn) ord hord).1

/-- What a sequence of requests returns, if nothing is given back. -/
theorem idRun_all (maxId : Nat) (hm : 0 < maxId) (n : Nat) :
    IdRun maxId { ids := [], next := n % maxId, maxId := maxId }
      ((List.range n).map fun i => (i + 1) % maxId) n := by
  induction n with
  | zero => simpa using IdRun.start (maxId := maxId)
  | succ n ih =>
    have h := IdRun.get id _ _ n (fun l => .refl l) ih
    have hlt := Nat.mod_lt n hm
    have key : (if maxId ≠ 0 ∧ n % maxId + 1 ≥ maxId then 0 else n % maxId + 1) = (n + 1) % maxId := by
      rw [mod_succ n maxId hm]
      by_cases hc : n % maxId + 1 < maxId
      · rw [if_pos hc, if_neg (by omega)]
      · rw [if_neg hc, if_pos (by omega)]
    simp only [getNext, id, key] at h
    rw [List.range_succ, List.map_append, List.map_singleton]
    exact h

/-- C32 is false of the code: after `max_id` requests without giving back, the next one gets an id in use (for every
`max_id` above 0). -/
theorem C32_false (maxId : Nat) (hm : 0 < maxId) : ∃ s out, IdRun maxId s out maxId ∧ (getNext id s).2 ∈ out := by
  refine ⟨_, _, idRun_all maxId hm maxId, ?_⟩
  simp only [getNext, id, Nat.mod_self, List.mem_map, List.mem_range]
  refine ⟨0, hm, ?_⟩
  rw [Nat.zero_add]
  by_cases h1 : maxId = 1
  · subst h1
    simp
  · rw [Nat.mod_eq_of_lt (by omega), if_neg (by omega)]

/-- Two requests, one id given back, which the third request gets again. -/
example : ∃ s, IdRun 255 s [2, 1] 3 :=
  ⟨_, .get id _ _ _ (fun l => .refl l) (.done _ _ _ 1 (by decide) (.get id _ _ _ (fun l => .refl l)
    (.get id _ _ _ (fun l => .refl l) .start)))⟩

end Verif.Props
