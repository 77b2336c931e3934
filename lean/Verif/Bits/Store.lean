import Verif.Bits.Lemmas
import Mathlib.Data.List.Induction
/-
Writing: StoreBits appends bits.
-/
namespace Verif.Bits
open Verif Spec

/-- The output bytes hold exactly `bits`, followed by zeros up to the byte boundary. -/
structure Rep (b : BitBucket) (bits : List Bool) : Prop where
  bytes : ∀ x ∈ b.output, x < 256
  boff : b.outBoff = bits.length % 8
  content : bitsOf b.output = bits ++ padZeros bits.length

theorem Rep.length {b : BitBucket} {bits : List Bool} (h : Rep b bits) :
    8 * b.output.length = bits.length + (8 - bits.length % 8) % 8 := by
  have := congrArg List.length h.content
  simpa [padZeros] using this

theorem Rep.numBits {b : BitBucket} {bits : List Bool} (h : Rep b bits) : numBits b = bits.length := by
  have h1 := h.length
  have h2 := h.boff
  unfold Verif.Bits.numBits
  split <;> omega

@[simp] theorem onLast_append (f : Nat → Nat) (l : List Nat) (x : Nat) : onLast f (l ++ [x]) = .ok (l ++ [f x]) := by
  simp [onLast]

theorem rep_empty : Rep BitBucket.empty [] := ⟨by simp [BitBucket.empty], rfl, rfl⟩

theorem exists_snoc {l : List Nat} (h : l ≠ []) : ∃ p x, l = p ++ [x] :=
  ⟨l.dropLast, l.getLast h, (List.dropLast_concat_getLast h).symm⟩

theorem take_app {α : Type} {l m : List α} {n k : Nat} (h : l.length = n) : (l ++ m).take (n + k) = l ++ m.take k := by
  subst h
  exact List.take_length_add_append k

theorem split_eq {α : Type} {A B C D : List α} {k : Nat} (h : A ++ B = C ++ D) (hk : C.length = A.length + k) :
    C = A ++ B.take k ∧ D = B.drop k := by
  have h1 := congrArg (List.take C.length) h
  have h2 := congrArg (List.drop C.length) h
  rw [List.take_left, hk, take_app rfl] at h1
  rw [List.drop_left, hk, List.drop_length_add_append] at h2
  exact ⟨h1.symm, h2.symm⟩

theorem loop_spec (o : Nat) (ho : 0 < o) (ho' : o < 8) (inp : List Nat) (hinp : ∀ x ∈ inp, x < 256) :
    ∀ (out : List Nat) (X : List Bool), (∀ x ∈ out, x < 256) → bitsOf out = X ++ List.replicate (8 - o) false →
    ∃ out', storeLoop o inp out = .ok out' ∧ (∀ x ∈ out', x < 256) ∧
      bitsOf out' = X ++ bitsOf inp ++ List.replicate (8 - o) false ∧
      (∀ c, inp.getLast? = some c → ∃ p y, out' = p ++ [y ||| (c >>> o)] ++ [(c <<< (8 - o)) &&& 255]) := by
  induction inp with
  | nil =>
    intro out X hb hX
    exact ⟨out, rfl, hb, by simp [hX], by simp⟩
  | cons c cs ih =>
    intro out X hb hX
    have hlen := congrArg List.length hX
    simp only [bitsOf_length, List.length_append, List.length_replicate] at hlen
    have hne : out ≠ [] := by
      rintro rfl
      simp at hlen
      omega
    obtain ⟨p, x, rfl⟩ := exists_snoc hne
    have hc : c < 256 := hinp c (by simp)
    have hx : x < 256 := hb x (by simp)
    simp only [List.length_append, List.length_singleton] at hlen
    have hXl : X.length = 8 * p.length + o := by omega
    have hX' : bitsOf p ++ byteBits x = X ++ List.replicate (8 - o) false := by simpa using hX
    obtain ⟨ht, hd'⟩ := split_eq hX' (k := o) (by simp [hXl])
    have hd := hd'.symm
    have hbits : bitsOf (p ++ [x ||| (c >>> o)] ++ [(c <<< (8 - o)) &&& 255]) =
        (X ++ byteBits c) ++ List.replicate (8 - o) false := by
      have := byteBits_store x c o ho ho' hc hd
      simp only [bitsOf_append, bitsOf_cons, bitsOf_nil, List.append_nil, List.append_assoc] at this ⊢
      rw [this, ht]
      simp
    obtain ⟨out', he, hb', hX2, hl⟩ := ih (fun y hy => hinp y (by simp [hy]))
      (p ++ [x ||| (c >>> o)] ++ [(c <<< (8 - o)) &&& 255]) (X ++ byteBits c) (by
        intro y hy
        simp only [List.mem_append, List.mem_singleton] at hy
        rcases hy with (hy | hy) | hy
        · exact hb y (by simp [hy])
        · rw [hy]; exact or_lt hx (shr_lt hc)
        · rw [hy]; exact and_lt _) hbits
    refine ⟨out', ?_, hb', by rw [hX2]; simp, ?_⟩
    · simp only [storeLoop, bind, Except.bind, onLast_append]
      exact he
    · intro d hd'
      cases cs with
      | nil =>
        simp only [List.getLast?_singleton, Option.some.injEq] at hd'
        subst hd'
        simp only [storeLoop, Except.ok.injEq] at he
        exact ⟨p, x, he.symm⟩
      | cons c' cs' =>
        exact hl d (by simpa using hd')

theorem mask_spec (out : List Nat) (Y Z : List Bool) (hb : ∀ x ∈ out, x < 256) (h : bitsOf out = Y ++ Z)
    (hZ : Z.length < 8) :
    ∃ out', (if Y.length % 8 ≠ 0 then onLast (clear (255 >>> (Y.length % 8))) out else pure out) = .ok out' ∧
      (∀ x ∈ out', x < 256) ∧ bitsOf out' = Y ++ padZeros Y.length := by
  have hlen := congrArg List.length h
  simp only [bitsOf_length, List.length_append] at hlen
  by_cases h0 : Y.length % 8 = 0
  · refine ⟨out, by simp [h0, pure, Except.pure], hb, ?_⟩
    have : Z.length = 0 := by omega
    rw [h, List.length_eq_zero_iff.1 this]
    simp [padZeros, h0]
  · have hne : out ≠ [] := by
      rintro rfl
      simp at hlen
      omega
    obtain ⟨p, x, rfl⟩ := exists_snoc hne
    refine ⟨p ++ [clear (255 >>> (Y.length % 8)) x], by rw [if_pos h0, onLast_append], ?_, ?_⟩
    · intro y hy
      simp only [List.mem_append, List.mem_singleton] at hy
      rcases hy with hy | hy
      · exact hb y (by simp [hy])
      · rw [hy]; exact clear_lt (hb x (by simp))
    · simp only [List.length_append, List.length_singleton] at hlen
      have hY : Y.length = 8 * p.length + Y.length % 8 := by omega
      have hX' : bitsOf p ++ byteBits x = Y ++ Z := by simpa using h
      obtain ⟨ht, -⟩ := split_eq hX' (k := Y.length % 8) (by simpa using hY)
      simp only [bitsOf_append, bitsOf_cons, bitsOf_nil, List.append_nil]
      rw [byteBits_clear _ _ (by omega)]
      conv_rhs => rw [ht]
      simp only [List.append_assoc, padZeros]
      congr 3
      simp
      omega

theorem leftover_pos (n : Nat) : 0 < leftoverBits n ∧ leftoverBits n ≤ 8 ∧ leftoverBits n % 8 = n % 8 := by
  unfold leftoverBits
  split <;> omega

theorem storeBits_spec {b : BitBucket} {bits : List Bool} (h : Rep b bits) (inp : List Nat) (n : Nat)
    (hne : inp ≠ []) (hinp : ∀ x ∈ inp, x < 256) :
    ∃ b', storeBits b inp n = .ok b' ∧
      Rep b' (bits ++ (bitsOf inp).take (8 * (inp.length - 1) + leftoverBits n)) ∧
      b'.idxByte = b.idxByte ∧ b'.idxBoff = b.idxBoff := by
  obtain ⟨hl0, hl8, hlm⟩ := leftover_pos n
  have hpos : 0 < inp.length := List.length_pos_iff.2 hne
  set lo := leftoverBits n with hlo
  set Y := bits ++ (bitsOf inp).take (8 * (inp.length - 1) + lo) with hY
  have hYlen : Y.length = bits.length + (8 * (inp.length - 1) + lo) := by
    simp [hY]
    omega
  obtain ⟨c, hc⟩ : ∃ c, inp.getLast? = some c := by
    cases hx : inp.getLast? with
    | none => exact absurd (List.getLast?_eq_none_iff.1 hx) hne
    | some c => exact ⟨c, rfl⟩
  have hboff := h.boff
  have hcont := h.content
  have hpad : bitsOf inp = (bitsOf inp).take (8 * (inp.length - 1) + lo) ++ (bitsOf inp).drop (8 * (inp.length - 1) + lo) :=
    (List.take_append_drop _ _).symm
  unfold storeBits
  rw [hc]
  simp only [← hlo]
  by_cases h0 : b.outBoff = 0
  · rw [if_pos h0]
    obtain ⟨p, x, rfl⟩ := exists_snoc hne
    rw [← List.append_assoc]
    simp only [onLast_append, bind, Except.bind, pure, Except.pure]
    rw [if_neg (by simp only [h0]; omega)]
    refine ⟨_, rfl, ⟨?_, ?_, ?_⟩, rfl, rfl⟩
    · intro y hy
      simp only [List.mem_append, List.mem_singleton] at hy
      rcases hy with (hy | hy) | hy
      · exact h.bytes y hy
      · exact hinp y (by simp [hy])
      · rw [hy]; exact clear_lt (hinp x (by simp))
    · simp only [hYlen]
      omega
    · simp only [bitsOf_append, bitsOf_cons, bitsOf_nil, List.append_nil, byteBits_clear _ _ hl8, hcont]
      have e1 : padZeros bits.length = [] := by simp [padZeros, ← hboff, h0]
      have e2 : padZeros Y.length = List.replicate (8 - lo) false := by
        unfold padZeros
        congr 1
        rw [hYlen]
        omega
      rw [e1, e2, hY]
      simp only [bitsOf_append, bitsOf_cons, bitsOf_nil, List.append_nil, List.length_append, List.length_singleton,
        Nat.add_sub_cancel]
      rw [take_app (by simp)]
      simp
  · rw [if_neg h0]
    have e1 : padZeros bits.length = List.replicate (8 - b.outBoff) false := by
      unfold padZeros
      congr 1
      omega
    have hblt : b.outBoff < 8 := by omega
    obtain ⟨out1, he1, hb1, hX1, hl1⟩ := loop_spec b.outBoff (by omega) hblt inp hinp b.output bits h.bytes
      (by rw [hcont, e1])
    obtain ⟨p, y, hp⟩ := hl1 c hc
    have hk : (b.outBoff + lo) % 8 = Y.length % 8 := by rw [hYlen]; omega
    -- after the optional pop
    obtain ⟨out2, he2, hb2, Z, hZ, hZl⟩ : ∃ out2, (if b.outBoff + lo ≤ 8 then
          onLast (fun x => x ||| (c >>> b.outBoff)) out1.dropLast else (pure out1 : Py (List Nat))) = .ok out2 ∧
        (∀ x ∈ out2, x < 256) ∧ ∃ Z, bitsOf out2 = Y ++ Z ∧ Z.length < 8 := by
      by_cases hle : b.outBoff + lo ≤ 8
      · rw [if_pos hle]
        have hd : out1.dropLast = p ++ [y ||| (c >>> b.outBoff)] := by rw [hp, List.dropLast_concat]
        rw [hd, onLast_append, Nat.or_assoc, Nat.or_self, ← hd]
        refine ⟨_, rfl, fun x hx => hb1 x (List.dropLast_subset _ hx), ?_⟩
        have hlen1 := congrArg List.length hX1
        simp only [bitsOf_length, List.length_append, List.length_replicate] at hlen1
        have hsplit : bitsOf out1 = bitsOf out1.dropLast ++ byteBits ((c <<< (8 - b.outBoff)) &&& 255) := by
          rw [hd, hp]
          simp
        have hdl : (bitsOf out1.dropLast).length = 8 * (out1.length - 1) := by simp
        refine ⟨((bitsOf inp).drop (8 * (inp.length - 1) + lo)).take (8 - b.outBoff - lo), ?_, by simp; omega⟩
        have h3 : bitsOf out1.dropLast ++ byteBits ((c <<< (8 - b.outBoff)) &&& 255) =
            (Y ++ ((bitsOf inp).drop (8 * (inp.length - 1) + lo)).take (8 - b.outBoff - lo)) ++
            (((bitsOf inp).drop (8 * (inp.length - 1) + lo)).drop (8 - b.outBoff - lo) ++
              List.replicate (8 - b.outBoff) false) := by
          rw [← hsplit, hX1, hY]
          conv_lhs => rw [hpad]
          simp only [List.append_assoc]
          rw [← List.append_assoc (List.take (8 - b.outBoff - lo) _), List.take_append_drop]
        have h4 := split_eq h3 (k := 0) (by
          rw [List.length_append, hYlen, hdl]
          simp only [List.length_take, List.length_drop, bitsOf_length]
          omega)
        simpa using h4.1.symm
      · rw [if_neg hle]
        refine ⟨out1, rfl, hb1, (bitsOf inp).drop (8 * (inp.length - 1) + lo) ++ List.replicate (8 - b.outBoff) false,
          ?_, ?_⟩
        · rw [hX1, hY]
          conv_lhs => rw [hpad]
          simp only [List.append_assoc]
        · simp
          omega
    obtain ⟨out3, he3, hb3, hZ3⟩ := mask_spec out2 Y Z hb2 hZ hZl
    simp only [bind, Except.bind, pure, Except.pure] at he2 he3 ⊢
    have hf : ¬ (Y.length % 8 ≠ (b.outBoff + n) % 8) := by omega
    by_cases hle : b.outBoff + lo ≤ 8 <;> by_cases hk0 : Y.length % 8 = 0 <;>
    simp only [hle, hk0, ne_eq, not_true_eq_false, not_false_eq_true, if_true, if_false, Except.ok.injEq] at he2 he3 hf <;>
    simp only [he1, he2, he3, hk, hle, hk0, hf, ne_eq, not_true_eq_false, not_false_eq_true, if_true, if_false,
      Except.ok.injEq, exists_eq_left'] <;>
    exact ⟨⟨by first | exact hb3 | (rw [he3]; exact hb3) | (rw [he2, he3]; exact hb3), by first | rfl | exact hk0.symm,
      by first | exact hZ3 | (rw [he3]; exact hZ3) | (rw [he2, he3]; exact hZ3)⟩, trivial, trivial⟩

end Verif.Bits
