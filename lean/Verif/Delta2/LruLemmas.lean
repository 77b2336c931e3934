import Verif.Delta2.Lru
import Mathlib.Data.List.Nodup
import Mathlib.Tactic.Ring
/-
Invariants of LruStorage.
-/
namespace Verif.Delta2
open Verif

/-- The `i`-th number given out. -/
def num (maxSeq : Option Int) (offset : Nat) (i : Nat) : Int :=
  match maxSeq with
  | none => offset + i
  | some m => offset + (i % (m - offset).toNat : Nat)

/-- The numbers in the ring are consecutive ones, and the numbers suffice. -/
structure RingOk (s : Lru) : Prop where
  ex : ∃ base : Nat, (∀ (p : Nat) (e : Entry), s.ring[p]? = some e → e.seq = num s.maxSeq s.offset (base + p)) ∧
    s.seqNum = num s.maxSeq s.offset (base + s.ring.length)
  fits : ∀ m, s.maxSeq = some m → s.ring.length ≤ (m - s.offset).toNat

theorem mod_succ (i M : Nat) (h : 0 < M) : (i + 1) % M = if i % M + 1 < M then i % M + 1 else 0 := by
  have h1 := Nat.mod_lt i h
  rw [← Nat.mod_add_mod]
  split
  · exact Nat.mod_eq_of_lt (by omega)
  · have : i % M + 1 = M := by omega
    rw [this, Nat.mod_self]

theorem mod_add_cases (i p M : Nat) (h : p < M) :
    ((i + p) % M = i % M + p ∧ i % M + p < M) ∨ ((i + p) % M + M = i % M + p ∧ (i + p) % M < i % M) := by
  have h1 := Nat.mod_lt i (show 0 < M by omega)
  rw [← Nat.mod_add_mod i M p]
  by_cases hc : i % M + p < M
  · exact .inl ⟨Nat.mod_eq_of_lt hc, hc⟩
  · have : (i % M + p) % M = i % M + p - M := by
      rw [Nat.mod_eq_sub_mod (by omega), Nat.mod_eq_of_lt (by omega)]
    right
    omega

theorem RingOk.init {s : Lru} (h1 : s.ring = []) (h2 : s.seqNum = s.offset) : RingOk s := by
  refine ⟨⟨0, ?_, ?_⟩, ?_⟩
  · intro p e he
    rw [h1] at he
    simp at he
  · rw [h2, h1]
    cases hm : s.maxSeq <;> simp [num]
  · simp [h1]

theorem RingOk.drop {s s' : Lru} (h : RingOk s) (k : Nat) (hr : s'.ring = s.ring.drop k) (h1 : s'.maxSeq = s.maxSeq)
    (h2 : s'.offset = s.offset) (h3 : s'.seqNum = s.seqNum) : RingOk s' := by
  obtain ⟨base, ha, hb⟩ := h.ex
  by_cases hk : k ≤ s.ring.length
  · refine ⟨⟨base + k, ?_, ?_⟩, ?_⟩
    · intro p e he
      rw [hr, List.getElem?_drop] at he
      rw [ha _ _ he, h1, h2]
      congr 1
      omega
    · rw [h3, hb, hr, h1, h2, List.length_drop]
      congr 1
      omega
    · intro m hm
      have := h.fits m (by rw [← h1, hm])
      rw [hr, List.length_drop, h2]
      omega
  · have hn : s'.ring = [] := by rw [hr]; exact List.drop_of_length_le (by omega)
    refine ⟨⟨base + s.ring.length, ?_, ?_⟩, ?_⟩
    · intro p e he
      rw [hn] at he
      simp at he
    · rw [h3, hb, hn, h1, h2]
      rfl
    · simp [hn]

/-- There is a number left for another item. -/
def HasRoom (s : Lru) : Prop := ∀ m, s.maxSeq = some m → s.ring.length + 1 ≤ (m - s.offset).toNat

theorem store_ok {c : Counts} {s s' : Lru} {kv : KV} (e : s.store c kv = .ok s') :
    s' = { s with
      ring := s.ring ++ [{ kv := kv, seq := s.seqNum }], byteSize := s.byteSize + kv.byteSize c,
      seqNum := nextSeq s s.seqNum } := by
  simp only [Lru.store] at e
  split at e
  · cases e
  · split at e
    · cases e
    · cases e; rfl

theorem nextSeq_num (s : Lru) (i : Nat) (h : ∀ m, s.maxSeq = some m → 0 < (m - s.offset).toNat) :
    nextSeq s (num s.maxSeq s.offset i) = num s.maxSeq s.offset (i + 1) := by
  cases hm : s.maxSeq with
  | none =>
    simp only [nextSeq, hm, num]
    push_cast
    ring
  | some m =>
    have hM := h m hm
    have hn : ∀ j, num (some m) s.offset j = s.offset + (j % (m - s.offset).toNat : Nat) := fun _ => rfl
    have h1 := hn i
    have h2 := hn (i + 1)
    rw [mod_succ _ _ hM] at h2
    have := Nat.mod_lt i hM
    simp only [nextSeq, hm]
    by_cases hc : i % (m - s.offset).toNat + 1 < (m - s.offset).toNat
    · rw [if_pos hc] at h2
      rw [if_neg (by omega)]
      omega
    · rw [if_neg hc] at h2
      rw [if_pos (by omega)]
      omega

theorem RingOk.store {c : Counts} {s s' : Lru} {kv : KV} (h : RingOk s) (hroom : HasRoom s)
    (e : s.store c kv = .ok s') : RingOk s' := by
  have hs' := store_ok e
  obtain ⟨base, ha, hb⟩ := h.ex
  have e1 : s'.maxSeq = s.maxSeq := by rw [hs']
  have e2 : s'.offset = s.offset := by rw [hs']
  have e3 : s'.ring = s.ring ++ [{ kv := kv, seq := s.seqNum }] := by rw [hs']
  have e4 : s'.seqNum = nextSeq s s.seqNum := by rw [hs']
  refine ⟨⟨base, ?_, ?_⟩, ?_⟩
  · intro p x hx
    rw [e3] at hx
    rw [e1, e2]
    by_cases hp : p < s.ring.length
    · rw [List.getElem?_append_left hp] at hx
      exact ha p x hx
    · rw [List.getElem?_append_right (by omega)] at hx
      obtain ⟨hq, rfl⟩ := List.getElem?_eq_some_iff.1 hx
      simp only [List.length_singleton] at hq
      have hpe : p = s.ring.length := by omega
      subst hpe
      simp [hb]
  · rw [e4, e3, e1, e2, List.length_append, List.length_singleton, hb]
    exact nextSeq_num s _ fun m hm => by have := hroom m hm; omega
  · intro m hm
    have := hroom m (by rw [← e1, hm])
    rw [e3, e2, List.length_append, List.length_singleton]
    exact this

/-- The position of an entry from its number. -/
theorem seqNumToIdx_spec {s : Lru} (h : RingOk s) {p : Nat} {e : Entry} (he : s.ring[p]? = some e) :
    seqNumToIdx s e.seq = .ok p := by
  obtain ⟨base, ha, hb⟩ := h.ex
  obtain ⟨hp, _⟩ := List.getElem?_eq_some_iff.1 he
  have hseq := ha p e he
  cases hr : s.ring with
  | nil => rw [hr] at hp; simp at hp
  | cons e0 rest =>
    have h0 := ha 0 e0 (by rw [hr]; rfl)
    simp only [seqNumToIdx, hr]
    cases hm : s.maxSeq with
    | none =>
      simp only [hm, num] at hseq h0
      rw [if_neg (by omega), if_neg (by omega)]
      congr 1
      omega
    | some m =>
      have hfit := h.fits m hm
      simp only [hm, num] at hseq h0
      rw [if_neg (by omega)]
      have hc := mod_add_cases base p (m - s.offset).toNat (by omega)
      simp only [Nat.add_zero] at h0
      rcases hc with ⟨c1, c2⟩ | ⟨c1, c2⟩
      · rw [if_neg (by omega)]
        congr 1
        omega
      · have := Nat.mod_lt base (show 0 < (m - s.offset).toNat by omega)
        rw [if_pos (by omega)]
        simp only
        rw [if_neg (by omega)]
        congr 1
        omega

theorem pyIndex_some {α : Type} {l : List α} {p : Nat} {x : α} (h : l[p]? = some x) : pyIndex l p = .ok x := by
  simp only [pyIndex, if_neg (show ¬ (p : Int) < 0 by omega), Int.toNat_natCast, h]

theorem pyIndex_neg {α : Type} {l : List α} {p : Nat} {x : α} (h : l[l.length - 1 - p]? = some x) (hp : p < l.length) :
    pyIndex l (-((p : Int) + 1)) = .ok x := by
  have : (-((p : Int) + 1) + l.length).toNat = l.length - 1 - p := by omega
  simp only [pyIndex, if_pos (show -((p : Int) + 1) < 0 by omega), if_neg (show ¬ -((p : Int) + 1) + l.length < 0 by omega), this, h]

theorem pyIndex_mem {α : Type} {l : List α} {i : Int} {x : α} (h : pyIndex l i = .ok x) : x ∈ l := by
  unfold pyIndex at h
  generalize (if i < 0 then i + (l.length : Int) else i) = j at h
  simp only at h
  by_cases hj : j < 0
  · rw [if_pos hj] at h
    cases h
  · rw [if_neg hj] at h
    cases hg : l[j.toNat]? with
    | none => rw [hg] at h; cases h
    | some y =>
      rw [hg] at h
      cases h
      exact List.mem_of_getElem? hg

/-- Lookup finds the entry with the number, and only that. -/
theorem lookup_iff {s : Lru} (h : RingOk s) (n : Int) (e : Entry) : lookup s n = .ok e ↔ e ∈ s.ring ∧ e.seq = n := by
  constructor
  · intro hl
    simp only [lookup, bind, Except.bind] at hl
    split at hl
    · cases hl
    · split at hl
      · cases hl
      · rename_i i _ x hx
        split at hl
        · cases hl
        · rename_i hne
          cases hl
          exact ⟨pyIndex_mem hx, by simpa using hne⟩
  · rintro ⟨hm, rfl⟩
    obtain ⟨p, hp⟩ := List.mem_iff_getElem?.1 hm
    simp only [lookup, bind, Except.bind, seqNumToIdx_spec h hp, pyIndex_some hp]
    rw [if_neg (by simp)]
    rfl

theorem RingOk.nodup {s : Lru} (h : RingOk s) : (s.ring.map (·.seq)).Nodup := by
  rw [List.nodup_iff_injective_getElem]
  intro a b hab
  obtain ⟨a, ha⟩ := a
  obtain ⟨b, hb⟩ := b
  simp only [List.length_map] at ha hb
  simp only [List.getElem_map] at hab
  have h1 := seqNumToIdx_spec h (List.getElem?_eq_getElem ha)
  have h2 := seqNumToIdx_spec h (List.getElem?_eq_getElem hb)
  rw [hab, h2] at h1
  simp only [Except.ok.injEq] at h1
  simp only [Fin.mk.injEq]
  omega

theorem RingOk.range {s : Lru} (h : RingOk s) {e : Entry} (he : e ∈ s.ring) :
    (s.offset : Int) ≤ e.seq ∧ ∀ m, s.maxSeq = some m → e.seq < m := by
  obtain ⟨base, ha, _⟩ := h.ex
  obtain ⟨p, hp⟩ := List.mem_iff_getElem?.1 he
  obtain ⟨hlt, _⟩ := List.getElem?_eq_some_iff.1 hp
  rw [ha p e hp]
  refine ⟨?_, fun m hm => ?_⟩
  · cases s.maxSeq <;> simp only [num] <;> omega
  · have := h.fits m hm
    rw [hm]
    simp only [num]
    have := Nat.mod_lt (base + p) (show 0 < (m - s.offset).toNat by omega)
    omega

/-! ### Reserve -/

/-- Everything except the ring, the byte count and the next number stays. -/
structure SameLimits (s s' : Lru) : Prop where
  items : s'.maxItems = s.maxItems
  bytes : s'.maxBytes = s.maxBytes
  seq : s'.maxSeq = s.maxSeq
  offset : s'.offset = s.offset

theorem SameLimits.refl (s : Lru) : SameLimits s s := ⟨rfl, rfl, rfl, rfl⟩
theorem SameLimits.trans {a b c : Lru} (h : SameLimits a b) (h' : SameLimits b c) : SameLimits a c :=
  ⟨h'.items.trans h.items, h'.bytes.trans h.bytes, h'.seq.trans h.seq, h'.offset.trans h.offset⟩

/-- Entries were removed from the left. -/
structure Popped (s s' : Lru) (ps : List Entry) : Prop where
  ring : s.ring = ps ++ s'.ring
  same : SameLimits s s'
  num : s'.seqNum = s.seqNum
  bytes : s'.byteSize ≤ s.byteSize

theorem cellLen_nonneg (c : Counts) (a : Nat) (s : Str) : 0 ≤ cellLen c a s := by
  simp only [cellLen]
  split <;> omega

theorem byteSize_nonneg (c : Counts) (kv : KV) : 0 ≤ kv.byteSize c := by
  have h1 := cellLen_nonneg c kv.vcell kv.val
  have h2 := cellLen_nonneg c kv.kcell kv.key
  simp only [KV.byteSize]
  omega

theorem Popped.refl (s : Lru) : Popped s s [] := ⟨rfl, .refl s, rfl, le_refl _⟩

theorem Popped.trans {a b c : Lru} {ps qs : List Entry} (h : Popped a b ps) (h' : Popped b c qs) :
    Popped a c (ps ++ qs) :=
  ⟨by rw [h.ring, h'.ring, List.append_assoc], h.same.trans h'.same, h'.num.trans h.num, h'.bytes.trans h.bytes⟩

theorem popOne_spec {c c' : Counts} {s s' : Lru} {e : Entry} (h : popOne c s = some (c', s', e)) : Popped s s' [e] := by
  simp only [popOne] at h
  split at h
  · cases h
  · rename_i item rest hr
    simp only [Option.some.injEq, Prod.mk.injEq] at h
    obtain ⟨_, rfl, rfl⟩ := h
    have := byteSize_nonneg c item.kv
    exact ⟨by simpa using hr, ⟨rfl, rfl, rfl, rfl⟩, rfl, by simp only; omega⟩

/-- An induction over the pops of a loop: `P` holds at the end if popping keeps it. -/
theorem popWhile_spec (cond : Counts → Lru → Bool) (n : Nat) : ∀ (c : Counts) (s : Lru) (ps : List Entry),
    ∃ qs, (popWhile cond n c s ps).popped = ps ++ qs ∧ Popped s (popWhile cond n c s ps).lru qs ∧
      ((popWhile cond n c s ps).ok = true →
        cond (popWhile cond n c s ps).counts (popWhile cond n c s ps).lru = false) := by
  induction n with
  | zero =>
    intro c s ps
    exact ⟨[], by simp [popWhile], .refl s, by simp [popWhile]⟩
  | succ n ih =>
    intro c s ps
    simp only [popWhile]
    split
    · split
      · exact ⟨[], by simp, .refl s, by simp⟩
      · rename_i c' s' item hp
        obtain ⟨qs, h1, h2, h3⟩ := ih c' s' (ps ++ [item])
        exact ⟨item :: qs, by rw [h1]; simp, (popOne_spec hp).trans h2, h3⟩
    · rename_i hc
      exact ⟨[], by simp, .refl s, by simpa using hc⟩

/-- What Reserve does: it pops some entries; if it succeeds there is room for the entry. -/
theorem reserve_spec (kv : KV) (c : Counts) (s : Lru) (k : Int) :
    Popped s (reserve kv k c s).lru (reserve kv k c s).popped ∧
    ((reserve kv k c s).ok = true → s.maxItems ≠ some 0 ∧ s.maxBytes ≠ some 0 ∧
      (∀ m, s.maxItems = some m → (((reserve kv k c s).lru.ring.length : Int) + k ≤ m)) ∧
      (∀ m, s.maxBytes = some m → (reserve kv k c s).lru.byteSize + kv.byteSize (reserve kv k c s).counts ≤ m)) := by
  simp only [reserve]
  split
  · exact ⟨.refl s, by simp⟩
  · rename_i h0
    rw [not_or] at h0
    have hi : Popped s (reserveItems k c s).lru (reserveItems k c s).popped ∧ ((reserveItems k c s).ok = true →
        ∀ m, s.maxItems = some m → (((reserveItems k c s).lru.ring.length : Int) + k ≤ m)) := by
      simp only [reserveItems]
      cases hm : s.maxItems with
      | none => exact ⟨.refl s, by simp⟩
      | some m =>
        obtain ⟨qs, h1, h2, h3⟩ := popWhile_spec (fun _ s => decide ((s.ring.length : Int) + k > m)) s.ring.length c s []
        simp only [List.nil_append] at h1
        refine ⟨by rw [h1]; exact h2, fun hok m' hm' => ?_⟩
        cases hm'
        simpa using h3 hok
    generalize reserveItems k c s = r at hi ⊢
    obtain ⟨hp, hok1⟩ := hi
    split
    · rename_i hrok
      have hb : ∃ qs, (reserveBytes kv r.counts r.lru r.popped).popped = r.popped ++ qs ∧
          Popped r.lru (reserveBytes kv r.counts r.lru r.popped).lru qs ∧
          ((reserveBytes kv r.counts r.lru r.popped).ok = true → ∀ m, r.lru.maxBytes = some m →
            (reserveBytes kv r.counts r.lru r.popped).lru.byteSize +
              kv.byteSize (reserveBytes kv r.counts r.lru r.popped).counts ≤ m) := by
        simp only [reserveBytes]
        cases hm : r.lru.maxBytes with
        | none => exact ⟨[], by simp, .refl _, by simp⟩
        | some m =>
          obtain ⟨qs, h1, h2, h3⟩ := popWhile_spec (fun c s => decide (s.byteSize + kv.byteSize c > m))
            r.lru.ring.length r.counts r.lru r.popped
          refine ⟨qs, h1, h2, fun hok m' hm' => ?_⟩
          cases hm'
          simpa using h3 hok
      obtain ⟨qs, h1, h2, h3⟩ := hb
      refine ⟨by rw [h1]; exact hp.trans h2, fun hok => ⟨h0.1, h0.2, fun m hm => ?_, fun m hm => ?_⟩⟩
      · have := hok1 hrok m hm
        have hl := congrArg List.length h2.ring
        simp only [List.length_append] at hl
        omega
      · exact h3 hok m (by rw [hp.same.bytes, hm])
    · rename_i hrok
      exact ⟨hp, fun h => absurd h hrok⟩

/-- After a successful Reserve, Store does not raise. -/
theorem store_after_reserve (kv : KV) (c : Counts) (s : Lru) (hok : (reserve kv 1 c s).ok = true) :
    ∃ s', (reserve kv 1 c s).lru.store (reserve kv 1 c s).counts kv = .ok s' := by
  obtain ⟨hp, h⟩ := reserve_spec kv c s 1
  obtain ⟨_, _, h1, h2⟩ := h hok
  generalize reserve kv 1 c s = r at hp h1 h2 hok ⊢
  simp only [Lru.store]
  have a1 : tooManyBytes r.lru (kv.byteSize r.counts) = false := by
    simp only [tooManyBytes]
    cases hm : r.lru.maxBytes with
    | none => rfl
    | some m =>
      have := h2 m (by rw [← hp.same.bytes, hm])
      simpa using this
  have a2 : tooManyItems r.lru = false := by
    simp only [tooManyItems]
    cases hm : r.lru.maxItems with
    | none => rfl
    | some m =>
      have := h1 m (by rw [← hp.same.items, hm])
      simp only [decide_eq_false_iff_not]
      omega
  simp [a1, a2]

end Verif.Delta2
