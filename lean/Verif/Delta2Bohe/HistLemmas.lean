import Verif.Delta2Bohe.LruLemmas
/-
delta2_bohe: the storage after any number of entries.
-/
namespace Verif.Delta2Bohe
open Verif

/-- The limits of the codec's storage, and the right count of bytes. -/
structure Lim (s : Lru) : Prop where
  items : s.maxItems = some 1024
  bytes : s.maxBytes = some 16384
  maxSeq : s.maxSeq = some 65536
  offset : s.offset = 65
  size : s.byteSize = sizeSum s.ring

/-- The number of the `j`-th entry that is stored. -/
def numberOf (j : Nat) : Nat := 65 + j % 65472

/-- Both limits are kept. -/
def InLimits (l : List Entry) : Prop := l.length ≤ 1024 ∧ sizeSum l ≤ 16384

theorem insL_any {s : Lru} (hs : Lim s) (k v : Str) (hsz : v.length + k.length ≤ 16384) :
    ∃ n ≤ s.ring.length, ∃ s', insL s k v = .ok (s', s.ring.take n) ∧ Lim s' ∧ s'.ring = s.ring.drop n ++ [⟨k, v, s.seqNum⟩] ∧
      s'.seqNum = (if s.seqNum + 1 > 65536 then 65 else s.seqNum + 1) ∧ InLimits s'.ring ∧
      ∀ m < n, ¬ InLimits (s.ring.drop m ++ [⟨k, v, s.seqNum⟩]) := by
  have c1 : ∀ m, itemsOver 1 (s.dropN m) = decide ((s.ring.drop m).length + 1 > 1024) := by
    intro m; simp [itemsOver, Lru.dropN, hs.items]
  have c2 : ∀ m, bytesOver (v.length + k.length) (s.dropN m) = decide (sizeSum (s.ring.drop m) + (v.length + k.length) > 16384) := by
    intro m
    simp only [bytesOver, Lru.dropN, hs.bytes]
    congr 1
    apply propext
    constructor
    · intro h; have := h.2; push_cast at this; omega
    · intro h; exact ⟨by decide, by push_cast; omega⟩
  obtain ⟨n1, hn1, e1, f1, g1⟩ := popWhile_spec (itemsOver 1) s.ring s [] rfl hs.size (by rw [c1]; simp)
  obtain ⟨n2, hn2, e2, f2, g2⟩ := popWhile_spec (bytesOver (v.length + k.length)) (s.dropN n1).ring (s.dropN n1) ([] ++ s.ring.take n1) rfl rfl (by
    rw [dropN_dropN, c2, List.drop_eq_nil_of_le (by simp [Lru.dropN]; omega)]; simpa using hsz)
  rw [dropN_dropN] at e2 f2
  have hlen : (s.dropN n1).ring.length = s.ring.length - n1 := by simp [Lru.dropN]
  rw [hlen] at hn2
  have hf2 := f2
  rw [c2] at hf2
  rw [c1] at f1
  simp only [decide_eq_false_iff_not, List.length_drop] at f1 hf2
  have f1' : itemsOver 1 (s.dropN (n1 + n2)) = false := by
    rw [c1]
    simp only [decide_eq_false_iff_not, List.length_drop]
    omega
  refine ⟨n1 + n2, by omega,
    { s.dropN (n1 + n2) with
      ring := (s.dropN (n1 + n2)).ring ++ [⟨k, v, s.seqNum⟩]
      byteSize := (s.dropN (n1 + n2)).byteSize + (v.length + k.length : Nat)
      seqNum := if s.seqNum + 1 > 65536 then 65 else s.seqNum + 1 }, ?_, ?_, ?_, rfl, ?_, ?_⟩
  · have ht : s.ring.take n1 ++ List.take n2 (s.dropN n1).ring = s.ring.take (n1 + n2) := by
      simp only [Lru.dropN]; rw [List.take_add]
    rw [List.nil_append] at e1 e2
    rw [ht] at e2
    have hm : (s.dropN (n1 + n2)).maxSeq = some 65536 := hs.maxSeq
    have hn : (s.dropN (n1 + n2)).seqNum = s.seqNum := rfl
    have ho : (s.dropN (n1 + n2)).offset = 65 := hs.offset
    simp only [insL, reserve, bind, Except.bind, e1, e2, Lru.store, f1', f2, pure, Except.pure, Bool.false_eq_true, if_false, hm,
      hn, ho]
    simp
  · exact ⟨hs.items, hs.bytes, hs.maxSeq, hs.offset, by simp [Lru.dropN, Entry.size]⟩
  · rfl
  · constructor
    · simp [Lru.dropN]; omega
    · simp [Lru.dropN, Entry.size]; omega
  · intro m hm hlim
    obtain ⟨l1, l2⟩ := hlim
    simp [Entry.size] at l1 l2
    by_cases h : m < n1
    · have := g1 m h
      rw [c1] at this
      simp at this
      omega
    · have := g2 (m - n1) (by omega)
      rw [dropN_dropN, c2, show n1 + (m - n1) = m by omega] at this
      simp at this
      omega

theorem insL_large {s : Lru} (hs : Lim s) (k v : Str) (hsz : 16384 < v.length + k.length) : insL s k v = .error .index := by
  have c1 : ∀ m, itemsOver 1 (s.dropN m) = decide ((s.ring.drop m).length + 1 > 1024) := by
    intro m; simp [itemsOver, Lru.dropN, hs.items]
  obtain ⟨n1, hn1, e1, f1, g1⟩ := popWhile_spec (itemsOver 1) s.ring s [] rfl hs.size (by rw [c1]; simp)
  have key : ∀ (ring : List Entry) (s : Lru) (p : List Entry), s.maxBytes = some 16384 → s.ring = ring → s.byteSize = sizeSum ring →
      popWhile (bytesOver (v.length + k.length)) ring s p = .error .index := by
    intro ring
    induction ring with
    | nil =>
      intro s p hb hr hz
      have : bytesOver (v.length + k.length) s = true := by
        simp only [bytesOver, hb, hz, decide_eq_true_eq, sizeSum_nil]
        refine ⟨by decide, ?_⟩
        push_cast
        omega
      simp [popWhile, this]
    | cons e ring ih =>
      intro s p hb hr hz
      have : bytesOver (v.length + k.length) s = true := by
        simp only [bytesOver, hb, hz, decide_eq_true_eq]
        refine ⟨by decide, ?_⟩
        push_cast
        omega
      rw [popWhile, if_pos this]
      exact ih _ _ hb rfl (by simp only [hz, sizeSum_cons]; push_cast; ring)
  rw [insL, reserve]
  simp only [bind, Except.bind, e1, key (s.dropN n1).ring (s.dropN n1) _ hs.bytes rfl rfl]

/-- What has been stored, with its numbers. -/
def entriesOf (hist : List Hdr) : List Entry := hist.zipIdx.map fun x => ⟨x.1.1, x.1.2, numberOf x.2⟩

theorem entriesOf_append (hist : List Hdr) (h : Hdr) : entriesOf (hist ++ [h]) = entriesOf hist ++ [⟨h.1, h.2, numberOf hist.length⟩] := by
  simp [entriesOf, List.zipIdx_append]

theorem entriesOf_length (hist : List Hdr) : (entriesOf hist).length = hist.length := by simp [entriesOf]

/-- The storage holds the longest part of the history that is within the limits. -/
structure Holds (s : Lru) (hist : List Hdr) (n : Nat) : Prop where
  lim : Lim s
  seq : s.seqNum = numberOf hist.length
  le : n ≤ hist.length
  ring : s.ring = (entriesOf hist).drop n
  fits : InLimits s.ring
  most : ∀ m < n, ¬ InLimits ((entriesOf hist).drop m)

theorem InLimits.suffix {a b : List Entry} (h : InLimits (a ++ b)) : InLimits b := by
  obtain ⟨h1, h2⟩ := h
  simp at h1 h2
  exact ⟨by omega, by omega⟩

theorem InLimits.prefix {a b : List Entry} (h : InLimits (a ++ b)) : InLimits a := by
  obtain ⟨h1, h2⟩ := h
  simp at h1 h2
  exact ⟨by omega, by omega⟩

theorem holds_step {s : Lru} {hist : List Hdr} {n : Nat} (h : Holds s hist n) (k v : Str) (hsz : v.length + k.length ≤ 16384) :
    ∃ n' s' popped, n ≤ n' ∧ insL s k v = .ok (s', popped) ∧ popped = ((entriesOf hist).drop n).take (n' - n) ∧ Holds s' (hist ++ [(k, v)]) n' := by
  obtain ⟨m, hm, s', e, hl', hr, hsq, hfit, hmost⟩ := insL_any h.lim k v hsz
  have hlen : s.ring.length = hist.length - n := by rw [h.ring, List.length_drop, entriesOf_length]
  have hle := h.le
  have hring' : s'.ring = (entriesOf (hist ++ [(k, v)])).drop (n + m) := by
    rw [hr, entriesOf_append, List.drop_append_of_le_length (by rw [entriesOf_length]; omega), h.ring, List.drop_drop, h.seq]
  refine ⟨n + m, s', _, by omega, e, by rw [h.ring, Nat.add_sub_cancel_left], ⟨hl', ?_, by simp; omega, hring', hfit, ?_⟩⟩
  · rw [hsq, h.seq, List.length_append, List.length_singleton]
    unfold numberOf
    split <;> omega
  · intro i hi hlim
    rw [entriesOf_append, List.drop_append_of_le_length (by rw [entriesOf_length]; omega)] at hlim
    by_cases hin : i < n
    · exact h.most i hin hlim.prefix
    · refine hmost (i - n) (by omega) ?_
      rw [h.ring, List.drop_drop, show n + (i - n) = i by omega, h.seq]
      exact hlim

/-- The `i`-th entry of the storage. -/
theorem holds_get {s : Lru} {hist : List Hdr} {n : Nat} (h : Holds s hist n) (j : Nat) (h1 : n ≤ j) (h2 : j < hist.length) :
    s.ring[j - n]? = some ⟨hist[j].1, hist[j].2, numberOf j⟩ := by
  rw [h.ring, List.getElem?_drop, show n + (j - n) = j by omega]
  simp [entriesOf, h2]

theorem holds_len {s : Lru} {hist : List Hdr} {n : Nat} (h : Holds s hist n) : s.ring.length = hist.length - n := by
  rw [h.ring, List.length_drop, entriesOf_length]

/-- Looking up a number in use. -/
theorem holds_lookup {s : Lru} {hist : List Hdr} {n : Nat} (h : Holds s hist n) (j : Nat) (h1 : n ≤ j) (h2 : j < hist.length) :
    lookup s (numberOf j) = if j / 65472 = n / 65472 then .ok ⟨hist[j].1, hist[j].2, numberOf j⟩
      else if hj : j + 64 < hist.length then .ok ⟨hist[j + 64].1, hist[j + 64].2, numberOf (j + 64)⟩ else .error .index := by
  have hn : n < hist.length := by omega
  have h0 := holds_get h n le_rfl hn
  rw [Nat.sub_self] at h0
  obtain ⟨e, t, hr⟩ : ∃ e t, s.ring = e :: t := by
    cases hr : s.ring with
    | nil => rw [hr] at h0; simp at h0
    | cons e t => exact ⟨e, t, rfl⟩
  have he : e.seq = numberOf n := by
    rw [hr] at h0
    simp at h0
    rw [h0]
  have hlen := holds_len h
  have hlim := h.fits.1
  have hoff := h.lim.offset
  have hmax := h.lim.maxSeq
  have hpy : ∀ i : Nat, Delta2.pyIndex s.ring (i : Int) = if hi : n + i < hist.length then .ok ⟨hist[n + i].1, hist[n + i].2, numberOf (n + i)⟩ else .error .index := by
    intro i
    simp only [Delta2.pyIndex]
    rw [if_neg (by omega), if_neg (by omega), Int.toNat_natCast]
    by_cases hi : n + i < hist.length
    · rw [dif_pos hi]
      have := holds_get h (n + i) (by omega) hi
      rw [Nat.add_sub_cancel_left] at this
      rw [this]
    · rw [dif_neg hi, List.getElem?_eq_none (by omega)]
  have hge : ¬ numberOf j < s.offset := by unfold numberOf; omega
  have hrest : lookup s (numberOf j) = if numberOf n > numberOf j then Delta2.pyIndex s.ring ((65536 : Int) - numberOf n + numberOf j)
      else Delta2.pyIndex s.ring ((numberOf j : Int) - numberOf n) := by
    conv_lhs => rw [lookup, hr]
    simp only [hge, if_false, he, hmax]
    rw [hr]
    simp
  rw [hrest]
  by_cases hsame : j / 65472 = n / 65472
  · rw [if_pos hsame]
    have hd : ((numberOf j : Int) - numberOf n) = ((j - n : Nat) : Int) := by
      unfold numberOf
      omega
    rw [if_neg (by unfold numberOf; omega), hd, hpy, dif_pos (by omega)]
    have : n + (j - n) = j := by omega
    simp only [this]
  · rw [if_neg hsame]
    have hd : ((65536 : Int) - numberOf n + numberOf j) = ((j - n + 64 : Nat) : Int) := by
      unfold numberOf
      omega
    rw [if_pos (by unfold numberOf; omega), hd, hpy]
    have : n + (j - n + 64) = j + 64 := by omega
    simp only [this]

end Verif.Delta2Bohe
