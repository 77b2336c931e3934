import Verif.Cpp.Huffman
import Verif.Huff.Code
/-
The canonical codes of huffman.h.
-/
namespace Verif.Cpp
open Verif Huff
open Verif.Bits.Spec (bitsOf natBits byteBits pack padZeros toNat)

/-- A code at the upper end of a word. -/
def wordOf (c : List Bool) : Nat := toNat c * 2 ^ (32 - c.length)

/-- The entry of a code. -/
def entryOf (c : List Bool) : CodeEntry := { vec := pack c, len := c.length, val := wordOf c }

theorem wordBytes (v : Nat) (n : Nat) (hn : n ≤ 4) :
    bitsOf ((List.range n).map fun i => (v >>> (24 - 8 * i)) % 256) = (natBits 32 v).take (8 * n) := by
  have h : natBits 32 v = byteBits (v >>> 24 % 256) ++ (byteBits (v >>> 16 % 256) ++ (byteBits (v >>> 8 % 256) ++ byteBits (v % 256))) := by
    rw [show (32 : Nat) = 8 + 24 by rfl, Bits.natBits_add 8 24, show (24 : Nat) = 8 + 16 by rfl, Bits.natBits_add 8 16,
      show (16 : Nat) = 8 + 8 by rfl, Bits.natBits_add 8 8]
    simp only [byteBits, Nat.shiftRight_eq_div_pow, show (256 : Nat) = 2 ^ 8 by rfl, Bits.natBits_mod]
  rw [h]
  have h4 : ∀ x : Nat, (byteBits x).length = 8 := Bits.byteBits_length
  interval_cases n
  · simp
  · simp [List.range_succ, h4]
  · simp [List.range_succ, List.take_append, h4]
  · simp [List.range_succ, List.take_append, h4, List.take_of_length_le]
  · simp [List.range_succ, List.take_append, h4, List.take_of_length_le]

theorem natBits_shift (w k v : Nat) : natBits (w + k) (v * 2 ^ k) = natBits w v ++ List.replicate k false := by
  rw [Bits.natBits_add, Nat.mul_div_cancel _ (Nat.two_pow_pos _)]
  congr 1
  rw [← Bits.natBits_mod, Nat.mul_mod_left]
  refine List.ext_getElem (by simp) fun i h1 h2 => ?_
  simp [natBits]

theorem distance_ok {a b : Nat} (h : b ≤ a) : distance a b = .ok (a - b) := if_pos h

theorem shl32_ok {x n : Nat} (h : n < 32) : shl32 x n = .ok (x * 2 ^ n % 2 ^ 32) := by
  unfold shl32
  rw [if_pos h, Nat.shiftLeft_eq]

theorem charArray_ok {code len : Nat} (h0 : 0 < len) (hl : len ≤ 32) (hc : code < 2 ^ len) :
    uint32ToCharArray code len = .ok (pack (natBits len code)) := by
  have hlt : code * 2 ^ (32 - len) < 2 ^ 32 := by
    calc code * 2 ^ (32 - len) < 2 ^ len * 2 ^ (32 - len) := Nat.mul_lt_mul_of_pos_right hc (Nat.two_pow_pos _)
      _ = 2 ^ 32 := by rw [← pow_add]; congr 1; omega
  unfold uint32ToCharArray
  simp only [bind, Except.bind, distance_ok hl, shl32_ok (show 32 - len < 32 by omega), Nat.mod_eq_of_lt hlt, pure, Except.pure]
  congr 1
  refine Bits.pack_unique _ _ ?_ ?_
  · intro x hx
    obtain ⟨i, -, rfl⟩ := List.mem_map.1 hx
    exact Nat.mod_lt _ (by decide)
  · rw [wordBytes _ _ (by omega)]
    have := natBits_shift len (32 - len) code
    rw [show len + (32 - len) = 32 by omega] at this
    rw [this, List.take_append, Bits.natBits_length, List.take_of_length_le (by simp; omega), List.take_replicate]
    unfold padZeros
    congr 2
    omega

/-- All steps in one list. -/
def canonAllC : List (Nat × Nat) → NextCode → Py NextCode
  | [], st => .ok st
  | (len, sym) :: L, st => do
    let st ← canonSymC st len sym
    canonAllC L st

theorem canonAllC_append (L M : List (Nat × Nat)) (st : NextCode) :
    canonAllC (L ++ M) st = (canonAllC L st).bind (canonAllC M) := by
  induction L generalizing st with
  | nil => rfl
  | cons p L ih =>
    obtain ⟨len, sym⟩ := p
    simp only [List.cons_append, canonAllC, bind]
    cases canonSymC st len sym with
    | error e => rfl
    | ok st' => exact ih st'

theorem canonSymsC_eq (len : Nat) (syms : List Nat) (st : NextCode) :
    canonSymsC len syms st = canonAllC (syms.map fun s => (len, s)) st := by
  induction syms generalizing st with
  | nil => rfl
  | cons s syms ih =>
    simp only [canonSymsC, List.map_cons, canonAllC, bind]
    congr 1
    funext st'
    exact ih st'

theorem canonLoopC_eq (gs : List (Nat × List Nat)) (st : NextCode) : canonLoopC gs st = canonAllC (order gs) st := by
  induction gs generalizing st with
  | nil => rfl
  | cons g gs ih =>
    obtain ⟨len, syms⟩ := g
    simp only [canonLoopC, order, List.flatMap_cons, canonAllC_append, bind, canonSymsC_eq]
    congr 1
    funext st'
    exact ih st'

theorem canonAllC_spec {H : Nat} (hH : H ≤ 32) (L : List (Nat × Nat)) : ∀ {next prev : Nat} (st : NextCode), Fits H next prev L →
    (st.code + 1) % 2 ^ 32 = next % 2 ^ 32 → st.prev = prev → (∀ p ∈ L.head?, p.1 - prev < 32) → (L.map (·.2)).Nodup →
    (∀ p ∈ L, p.2 < st.codes.length) →
    ∃ st', canonAllC L st = .ok st' ∧ st'.codes.length = st.codes.length ∧
      (∀ p ∈ assign next prev L, st'.codes[p.1]? = some (entryOf p.2)) ∧
      (∀ i, i ∉ L.map (·.2) → st'.codes[i]? = st.codes[i]?) := by
  induction L with
  | nil => intro next prev st _ _ _ _ _ _; exact ⟨st, rfl, rfl, by simp [assign], fun _ _ => rfl⟩
  | cons q L ih =>
    obtain ⟨len, sym⟩ := q
    intro next prev st h hc hp h32 hnd hin
    have hlo := h.lo (len, sym) (by simp)
    have hpos := h.pos (len, sym) (by simp)
    have hhi := h.hi (len, sym) (by simp)
    have hsh := h32 (len, sym) (by simp)
    have hsy := hin (len, sym) (by simp)
    simp only at hlo hpos hhi hsh hsy
    simp only [List.map_cons, List.nodup_cons] at hnd
    have hlt := h.lt
    have hl32 : 2 ^ len ≤ 2 ^ 32 := Nat.pow_le_pow_right (by decide) (by omega)
    have hnext : next < 2 ^ 32 := by
      have := Nat.le_mul_of_pos_right next (Nat.two_pow_pos (len - prev))
      omega
    have hval : next * 2 ^ (len - prev) * 2 ^ (32 - len) < 2 ^ 32 := by
      calc next * 2 ^ (len - prev) * 2 ^ (32 - len) < 2 ^ len * 2 ^ (32 - len) :=
            Nat.mul_lt_mul_of_pos_right hlt (Nat.two_pow_pos _)
        _ = 2 ^ 32 := by rw [← pow_add]; congr 1; omega
    have hstep : canonSymC st len sym = .ok
        { code := next * 2 ^ (len - prev), prev := len,
          codes := st.codes.set sym (entryOf (natBits len (next * 2 ^ (len - prev)))) } := by
      unfold canonSymC computeNextCode
      simp only [bind, Except.bind, hp, distance_ok hlo, distance_ok (show len ≤ 32 by omega), hc, Nat.mod_eq_of_lt hnext,
        shl32_ok hsh, Nat.mod_eq_of_lt (lt_of_lt_of_le hlt hl32), shl32_ok (show 32 - len < 32 by omega),
        Nat.mod_eq_of_lt hval, charArray_ok hpos (by omega) hlt, store, hsy, if_true, pure, Except.pure]
      congr 3
      simp only [entryOf, wordOf, Bits.natBits_length, Bits.toNat_natBits, Nat.mod_eq_of_lt hlt]
    obtain ⟨st', e, e1, e2, e3⟩ := ih (next := next * 2 ^ (len - prev) + 1) (prev := len)
      { code := next * 2 ^ (len - prev), prev := len,
        codes := st.codes.set sym (entryOf (natBits len (next * 2 ^ (len - prev)))) } h.tail rfl rfl
      (by
        intro p hp'
        have := h.hi p (List.mem_cons_of_mem _ (List.mem_of_mem_head? hp'))
        omega)
      hnd.2 (fun p hp' => by simpa using hin p (by simp [hp']))
    refine ⟨st', by simp only [canonAllC, hstep, bind, Except.bind, e], by rw [e1]; simp, ?_, ?_⟩
    · intro p hp'
      simp only [assign, List.mem_cons] at hp'
      rcases hp' with rfl | hp'
      · rw [e3 _ hnd.1]
        simp [hsy]
      · exact e2 p hp'
    · intro i hi
      simp only [List.map_cons, List.mem_cons, not_or] at hi
      rw [e3 i hi.2]
      simp [Ne.symm hi.1]

variable {W : Type}

theorem discoverC_spec (fuel : Nat) : ∀ (q : List (Tree W × Nat)) (d : Dict Nat (List Nat)),
    (q.map fun p => p.1.size).sum ≤ fuel → d.WF →
    ∃ d', discoverC fuel q d = .ok d' ∧ (flat d').Perm (queueLeaves q ++ flat d) ∧ d'.WF := by
  induction fuel with
  | zero =>
    intro q d h hwf
    cases q with
    | nil => exact ⟨d, rfl, List.Perm.refl _, hwf⟩
    | cons p q =>
      exfalso
      obtain ⟨t, n⟩ := p
      cases t <;> simp [Tree.size] at h
  | succ fuel ih =>
    intro q d h hwf
    cases q with
    | nil => exact ⟨d, rfl, List.Perm.refl _, hwf⟩
    | cons p q =>
      obtain ⟨t, n⟩ := p
      cases t with
      | leaf w s =>
        simp only [List.map_cons, List.sum_cons, Tree.size] at h
        obtain ⟨d', e, p, wf'⟩ := ih q (d.set n ((d.get? n).getD [] ++ [s])) (by omega) (hwf.set _ _)
        refine ⟨d', e, p.trans ?_, wf'⟩
        simp only [queueLeaves, List.flatMap_cons, Tree.leaves, List.cons_append, List.nil_append]
        exact (List.Perm.append_left _ (flat_set d n s)).trans List.perm_middle
      | node w dd l r =>
        simp only [List.map_cons, List.sum_cons, Tree.size] at h
        obtain ⟨d', e, p, wf'⟩ := ih ((r, n + 1) :: (l, n + 1) :: q) d
          (by simp only [List.map_cons, List.sum_cons]; omega) hwf
        refine ⟨d', e, p.trans ?_, wf'⟩
        simp only [queueLeaves, List.flatMap_cons, Tree.leaves]
        refine List.Perm.append_right _ ?_
        rw [← List.append_assoc]
        exact List.Perm.append_right _ List.perm_append_comm

theorem ascending_perm (d : Dict Nat (List Nat)) : (ascending d).Perm d := sortBy_perm _ d

theorem ascending_lt {d : Dict Nat (List Nat)} (h : d.WF) : (ascending d).Pairwise fun a b => a.1 < b.1 := by
  have h1 := sortBy_sorted (fun a b : Nat × List Nat => decide (a.1 ≤ b.1))
    (fun a b => by simp only [decide_eq_true_eq]; omega)
    (fun a b c => by simp only [decide_eq_true_eq]; omega) d
  have h2 : ((ascending d).map (·.1)).Nodup := ((ascending_perm d).map _).nodup_iff.2 h
  rw [List.Nodup, List.pairwise_map] at h2
  refine (List.pairwise_and_iff.2 ⟨h1, h2⟩).imp ?_
  intro a b hab
  have := hab.1
  simp only [decide_eq_true_eq] at this
  have := hab.2
  omega

theorem order_lex (gs : List (Nat × List Nat)) (h : gs.Pairwise fun a b => a.1 < b.1) :
    (order gs).Pairwise fun a b => pairLe a b = true := by
  induction gs with
  | nil => simp [order]
  | cons g gs ih =>
    rw [List.pairwise_cons] at h
    simp only [order, List.flatMap_cons]
    rw [List.pairwise_append]
    refine ⟨?_, ih h.2, ?_⟩
    · rw [List.pairwise_map]
      refine (sortBy_sorted (fun a b : Nat => decide (a ≤ b)) (fun a b => by simp only [decide_eq_true_eq]; omega)
        (fun a b c => by simp only [decide_eq_true_eq]; omega) g.2).imp ?_
      intro a b hab
      simp only [decide_eq_true_eq] at hab
      simp only [pairLe, decide_eq_true_eq]
      exact .inr ⟨trivial, hab⟩
    · intro a ha b hb
      simp only [List.mem_map, List.mem_flatMap] at ha hb
      obtain ⟨s, _, rfl⟩ := ha
      obtain ⟨g', hg', s', _, rfl⟩ := hb
      simp only [pairLe, decide_eq_true_eq]
      exact .inl (h.1 g' hg')

theorem lex_unique {L M : List (Nat × Nat)} (hp : L.Perm M) (hL : L.Pairwise fun a b => pairLe a b = true)
    (hM : M.Pairwise fun a b => pairLe a b = true) : L = M := by
  refine hp.eq_of_pairwise (le := fun a b => pairLe a b = true) ?_ hL hM
  intro a b _ _ hab hba
  simp only [pairLe, decide_eq_true_eq] at hab hba
  exact Prod.ext (by omega) (by omega)

/-- What BuildCanonicalCodeTable leaves: the codes in the order in which they were given out, and the
table. -/
structure CanonOf (t : Tree W) (n : Nat) (L : List (Nat × Nat)) (A : List (Nat × List Bool)) (codes : List CodeEntry) : Prop where
  perm : L.Perm (t.leaves 0)
  fits : Fits 32 0 0 L
  lex : L.Pairwise fun a b => pairLe a b = true
  eq : A = assign 0 0 L
  len : codes.length = n
  syms : (A.map (·.1)).Perm (List.range n)
  entry : ∀ p ∈ A, codes[p.1]? = some (entryOf p.2)

theorem canonicalC_spec (t : Tree W) (n : Nat) (hn : n < 2 ^ 32) (hnode : ∃ w d l r, t = Tree.node w d l r)
    (hs : t.syms.Perm (List.range n)) (hh : t.height ≤ 32) (codes : List CodeEntry) (hlen : codes.length = n) :
    ∃ codes' L A, canonicalC t codes = .ok codes' ∧ CanonOf t n L A codes' := by
  obtain ⟨d, hd, hp, hwf⟩ := discoverC_spec t.size [(t, 0)] [] (by simp) (by simp [Dict.WF, Dict.keys])
  have hp : (flat d).Perm (t.leaves 0) := by simpa [queueLeaves, flat] using hp
  have hperm : (order (ascending d)).Perm (t.leaves 0) :=
    (order_perm _).trans ((flat_perm (ascending_perm d)).trans hp)
  have ho2 := order_sorted _ (ascending_lt hwf)
  have hlex := order_lex _ (ascending_lt hwf)
  have hsyms : ((order (ascending d)).map (·.2)).Perm (List.range n) := by
    refine (hperm.map _).trans ?_
    rw [Tree.leaves_syms]
    exact hs
  have hnd : ((order (ascending d)).map (·.2)).Nodup := hsyms.nodup_iff.2 List.nodup_range
  have hfits : Fits 32 0 0 (order (ascending d)) := by
    refine ⟨ho2, fun _ _ => Nat.zero_le _, fun p hp' => ?_, fun p hp' => ?_, Nat.zero_le _, ?_⟩
    · have := (t.leaves_bound 0 p (hperm.mem_iff.1 hp')).2
      omega
    · exact leaves_pos hnode p (hperm.mem_iff.1 hp')
    · have h1 := t.kraft 0 32 (by omega)
      have h2 := (hperm.map fun p => 2 ^ (32 - p.1)).sum_eq
      rw [Nat.zero_mul, Nat.zero_add, h2, h1, Nat.sub_zero]
  have hL : (order (ascending d)).length = n := by simpa using hsyms.length_eq
  generalize hLe : order (ascending d) = L at *
  have h32 : ∀ p ∈ L.head?, p.1 - 0 < 32 := by
    intro p hp'
    by_contra hc
    have hall : ∀ q ∈ L, q.1 = 32 := by
      intro q hq
      have h1 := hfits.hi q hq
      obtain ⟨L', rfl⟩ := List.head?_eq_some_iff.1 hp'
      rcases List.mem_cons.1 hq with rfl | hq
      · omega
      · have := (List.pairwise_cons.1 ho2).1 q hq
        omega
    have hsum : (L.map fun p => 2 ^ (32 - p.1)).sum = L.length := by
      have : (L.map fun p => 2 ^ (32 - p.1)) = L.map fun _ => 1 := List.map_congr_left fun q hq => by rw [hall q hq]; rfl
      rw [this]
      simp
    have := hfits.sum
    rw [hsum] at this
    omega
  obtain ⟨st, he, e1, e2, e3⟩ := canonAllC_spec le_rfl L { code := 2 ^ 32 - 1, prev := 0, codes := codes } hfits (by norm_num) rfl
    h32 hnd (by
      intro p hp'
      simp only [hlen]
      exact List.mem_range.1 (hsyms.mem_iff.1 (List.mem_map_of_mem hp')))
  refine ⟨st.codes, L, assign 0 0 L, ?_, hperm, hfits, hlex, rfl, by rw [e1, hlen], by rw [assign_syms]; exact hsyms, e2⟩
  unfold canonicalC
  have hx : canonLoopC (ascending d) { code := 2 ^ 32 - 1, prev := 0, codes := codes } = .ok st := by
    rw [canonLoopC_eq, hLe, he]
  simp only [bind, Except.bind, hd, hx, pure, Except.pure]

end Verif.Cpp
