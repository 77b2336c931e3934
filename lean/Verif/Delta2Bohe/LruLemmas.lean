import Verif.Delta2Bohe.Model
import Verif.PyLemmas
import Mathlib.Tactic.Ring
import Mathlib.Data.List.Basic
/- Lemmas about the storage of delta2_bohe. -/
namespace Verif.Delta2Bohe
open Verif

/-- The bytes of a list of entries. -/
def sizeSum (l : List Entry) : Nat := (l.map Entry.size).sum

@[simp] theorem sizeSum_nil : sizeSum [] = 0 := rfl
@[simp] theorem sizeSum_cons (e : Entry) (l : List Entry) : sizeSum (e :: l) = e.size + sizeSum l := by simp [sizeSum]
@[simp] theorem sizeSum_append (a b : List Entry) : sizeSum (a ++ b) = sizeSum a + sizeSum b := by simp [sizeSum]

/-- The storage without its first `n` entries. -/
def Lru.dropN (s : Lru) (n : Nat) : Lru := { s with ring := s.ring.drop n, byteSize := sizeSum (s.ring.drop n) }

theorem dropN_dropN (s : Lru) (m n : Nat) : (s.dropN m).dropN n = s.dropN (m + n) := by
  simp [Lru.dropN, List.drop_drop]

theorem dropN_zero {s : Lru} (h : s.byteSize = sizeSum s.ring) : s.dropN 0 = s := by
  cases s; simp_all [Lru.dropN]

theorem popWhile_spec (cond : Lru → Bool) : ∀ (ring : List Entry) (s : Lru) (popped : List Entry), s.ring = ring →
    s.byteSize = sizeSum ring → cond (s.dropN ring.length) = false →
    ∃ n ≤ ring.length, popWhile cond ring s popped = .ok (s.dropN n, popped ++ ring.take n) ∧ cond (s.dropN n) = false ∧
      ∀ m < n, cond (s.dropN m) = true := by
  intro ring
  induction ring with
  | nil =>
    intro s p hr hb hc
    have h0 : s.dropN 0 = s := dropN_zero (by rw [hb, hr])
    simp only [List.length_nil, h0] at hc
    exact ⟨0, Nat.le_refl _, by simp [popWhile, hc, h0], by rw [h0]; exact hc, by intro m hm; omega⟩
  | cons e rest ih =>
    intro s p hr hb hc
    have h0 : s.dropN 0 = s := dropN_zero (by rw [hb, hr])
    by_cases h : cond s = true
    · have hs : ({ s with ring := rest, byteSize := s.byteSize - e.size } : Lru) = s.dropN 1 := by
        simp only [Lru.dropN, hr, List.drop_succ_cons, List.drop_zero, hb, sizeSum_cons]
        congr 1
        push_cast
        ring
      obtain ⟨n, hn, h1, h2, h3⟩ := ih (s.dropN 1) (p ++ [e]) (by simp [Lru.dropN, hr]) (by simp [Lru.dropN, hr]) (by
        rw [dropN_dropN, Nat.add_comm]; exact hc)
      refine ⟨n + 1, by simp; omega, ?_, ?_, ?_⟩
      · simp only [popWhile, h, if_true, hs, h1, dropN_dropN, Nat.add_comm 1 n, List.take_succ_cons, List.append_assoc,
          List.singleton_append]
      · rw [← Nat.add_comm 1 n, ← dropN_dropN]; exact h2
      · intro m hm
        cases m with
        | zero => rw [h0]; exact h
        | succ m =>
          rw [← Nat.add_comm 1 m, ← dropN_dropN]
          exact h3 m (by omega)
    · have hf : cond s = false := by simpa using h
      exact ⟨0, Nat.zero_le _, by simp [popWhile, hf, h0], by rw [h0]; exact hf, by intro m hm; omega⟩

/-- The storage of the codec: its limits, and consecutive numbers. -/
structure LruOk (s : Lru) : Prop where
  items : s.maxItems = some 1024
  bytes : s.maxBytes = some 16384
  maxSeq : s.maxSeq = some 65536
  offset : s.offset = 65
  size : s.byteSize = sizeSum s.ring
  lenLe : s.ring.length ≤ 1024
  sizeLe : sizeSum s.ring ≤ 16384
  lo : 65 + s.ring.length ≤ s.seqNum
  hi : s.seqNum ≤ 65536
  seqs : ∀ (i : Nat) (h : i < s.ring.length), s.ring[i].seq = s.seqNum - s.ring.length + i

/-- The number of the first entry. -/
def Lru.first (s : Lru) : Nat := s.seqNum - s.ring.length

/-- Storing an entry, and what is removed for it. -/
def insL (s : Lru) (k v : Str) : Py (Lru × List Entry) := do
  let (s, popped) ← reserve (v.length + k.length) 1 s
  let s ← s.store k v
  pure (s, popped)

theorem sizeSum_drop_le (l : List Entry) (n : Nat) : sizeSum (l.drop n) ≤ sizeSum l := by
  conv => rhs; rw [← List.take_append_drop n l, sizeSum_append]
  omega

theorem insL_spec {s : Lru} (hs : LruOk s) (k v : Str) (hsz : v.length + k.length ≤ 16384) (hq : s.seqNum < 65536) :
    ∃ n ≤ s.ring.length, ∃ s', insL s k v = .ok (s', s.ring.take n) ∧ LruOk s' ∧ s'.ring = s.ring.drop n ++ [⟨k, v, s.seqNum⟩] ∧
      s'.seqNum = s.seqNum + 1 ∧
      ∀ m < n, 1024 < (s.ring.drop m).length + 1 ∨ 16384 < sizeSum (s.ring.drop m) + (v.length + k.length) := by
  have c1 : ∀ m, itemsOver 1 (s.dropN m) = decide ((s.ring.drop m).length + 1 > 1024) := by
    intro m; simp [itemsOver, Lru.dropN, hs.items]
  have c2 : ∀ m, bytesOver (v.length + k.length) (s.dropN m) = decide (sizeSum (s.ring.drop m) + (v.length + k.length) > 16384) := by
    intro m
    simp only [bytesOver, Lru.dropN, hs.bytes]
    congr 1
    apply propext
    constructor
    · intro h; have := h.2; push_cast at this; omega
    · intro h; exact ⟨by decide, by push_cast; omega⟩
  obtain ⟨n1, hn1, e1, f1, g1⟩ := popWhile_spec (itemsOver 1) s.ring s [] rfl hs.size (by rw [c1]; simp)
  obtain ⟨n2, hn2, e2, f2, g2⟩ := popWhile_spec (bytesOver (v.length + k.length)) (s.dropN n1).ring (s.dropN n1) ([] ++ s.ring.take n1) rfl rfl (by
    rw [dropN_dropN, c2, List.drop_eq_nil_of_le (by simp [Lru.dropN]; omega)]; simpa using hsz)
  rw [dropN_dropN] at e2 f2
  have hlen : (s.dropN n1).ring.length = s.ring.length - n1 := by simp [Lru.dropN]
  rw [hlen] at hn2
  have hf2 := f2
  rw [c2] at hf2
  rw [c1] at f1
  simp only [decide_eq_false_iff_not, List.length_drop] at f1 hf2
  have f1' : itemsOver 1 (s.dropN (n1 + n2)) = false := by
    rw [c1]
    simp only [decide_eq_false_iff_not, List.length_drop]
    omega
  refine ⟨n1 + n2, by omega,
    { s.dropN (n1 + n2) with
      ring := (s.dropN (n1 + n2)).ring ++ [⟨k, v, s.seqNum⟩]
      byteSize := (s.dropN (n1 + n2)).byteSize + (v.length + k.length : Nat)
      seqNum := s.seqNum + 1 }, ?_, ?_, ?_, rfl, ?_⟩
  · have ht : s.ring.take n1 ++ List.take n2 (s.dropN n1).ring = s.ring.take (n1 + n2) := by
      simp only [Lru.dropN]; rw [List.take_add]
    have hw : ¬ (65536 ≠ 0 ∧ s.seqNum + 1 > 65536) := by omega
    rw [List.nil_append] at e1 e2
    rw [ht] at e2
    have hm : (s.dropN (n1 + n2)).maxSeq = some 65536 := hs.maxSeq
    have hn : (s.dropN (n1 + n2)).seqNum = s.seqNum := rfl
    simp only [insL, reserve, bind, Except.bind, e1, e2, Lru.store, f1', f2, pure, Except.pure, Bool.false_eq_true, if_false, hm,
      hn, hw]
  · have hdl := sizeSum_drop_le s.ring (n1 + n2)
    refine ⟨hs.items, hs.bytes, hs.maxSeq, hs.offset, ?_, ?_, ?_, ?_, ?_, ?_⟩
    · simp [Lru.dropN, Entry.size]
    · simp [Lru.dropN]; omega
    · simp [Lru.dropN, Entry.size]; omega
    · have := hs.lo; simp [Lru.dropN]; omega
    · simp; omega
    · intro i hi
      simp only [Lru.dropN, List.length_append, List.length_drop, List.length_singleton] at hi ⊢
      have hlo := hs.lo
      by_cases h : i < s.ring.length - (n1 + n2)
      · rw [List.getElem_append_left (by simpa using h), List.getElem_drop, hs.seqs]
        omega
      · rw [List.getElem_append_right (by simpa using h)]
        simp
        omega
  · rfl
  · intro m hm
    by_cases h : m < n1
    · have := g1 m h
      rw [c1] at this
      left; simpa using this
    · have := g2 (m - n1) (by omega)
      rw [dropN_dropN, c2, show n1 + (m - n1) = m by omega] at this
      right; simpa using this

theorem popWhile_over (cond : Lru → Bool) (hc : ∀ s, cond s = true) : ∀ (ring : List Entry) (s : Lru) (p : List Entry),
    popWhile cond ring s p = .error .index := by
  intro ring
  induction ring with
  | nil => intro s p; simp [popWhile, hc]
  | cons e r ih => intro s p; simp [popWhile, hc, ih]

/-- Looking up a number in use gives its entry. -/
theorem lookup_at {s : Lru} (hs : LruOk s) {n : Nat} (h1 : s.first ≤ n) (h2 : n < s.seqNum) :
    ∃ h : n - s.first < s.ring.length, lookup s n = .ok s.ring[n - s.first] ∧ s.ring[n - s.first].seq = n := by
  have hlo := hs.lo
  simp only [Lru.first] at *
  have h : n - (s.seqNum - s.ring.length) < s.ring.length := by omega
  refine ⟨h, ?_, by rw [hs.seqs]; omega⟩
  have hne : s.ring ≠ [] := by intro h0; simp [h0] at h
  obtain ⟨e, t, hr⟩ := List.exists_cons_of_ne_nil hne
  have he : e.seq = s.seqNum - s.ring.length := by
    have := hs.seqs 0 (by rw [hr]; simp)
    simpa [hr] using this
  have hoff := hs.offset
  have hl : lookup s n = Delta2.pyIndex s.ring ((n : Int) - e.seq) := by
    simp only [lookup, hr]
    rw [if_neg (by omega), if_neg (by omega)]
  rw [hl]
  simp only [Delta2.pyIndex]
  rw [if_neg (by omega), if_neg (by omega)]
  have hi : ((n : Int) - e.seq).toNat = n - (s.seqNum - s.ring.length) := by omega
  rw [hi, List.getElem?_eq_getElem h]

end Verif.Delta2Bohe
