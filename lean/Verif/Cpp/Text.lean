import Verif.Cpp.Coder
/-
Encode and Decode of huffman.h on bit buckets.
-/
namespace Verif.Cpp
open Verif Huff Huff.Spec
open Verif.Bits.Spec (Tape bitsOf natBits byteBits pack padZeros toNat)

/-! ### Encode -/

theorem codeAt_spec {h : Coder} {codes : List (List Bool)} (hc : IsCoder h codes) {c : Nat} (hlt : c < 257) :
    codeAt h c = .ok (entryOf ((codes[c]?).getD [])) := by
  unfold codeAt
  rw [hc.table, List.getElem?_map, List.getElem?_eq_getElem (by rw [hc.len]; exact hlt)]
  rfl

theorem holdsC_code {b : BB} {t : Tape} (h : HoldsC b t) (x : List Bool) :
    ∃ b', storeBits b (pack x) x.length = .ok b' ∧ HoldsC b' (t.write x) := by
  have hl : (pack x).length = (x.length + 7) / 8 := by
    have := congrArg List.length (Bits.bits_pack x)
    simp only [Bits.bitsOf_length, List.length_append, padZeros, List.length_replicate] at this
    omega
  obtain ⟨b', e, h'⟩ := holdsC_storeBits h (pack x) x.length (Bits.pack_lt x) hl
  rw [Bits.bits_pack, List.take_left] at h'
  exact ⟨b', e, h'⟩

theorem encodeC_spec {h : Coder} {codes : List (List Bool)} (hc : IsCoder h codes) (text : List Nat)
    (ht : ∀ c ∈ text, c < 257) (eof : Bool) : ∀ {b : BB} {t : Tape}, HoldsC b t → ∃ b', encodeC h b text eof = .ok b' ∧
      HoldsC b' (t.write (textBits codes text ++ if eof then textBits codes [256] else [])) := by
  induction text with
  | nil =>
    intro b t hb
    cases eof with
    | false => exact ⟨b, rfl, by simpa [textBits, Tape.write] using hb⟩
    | true =>
      obtain ⟨b', e, hb'⟩ := holdsC_code hb ((codes[256]?).getD [])
      refine ⟨b', ?_, by simpa [textBits, Tape.write] using hb'⟩
      simp only [encodeC, if_true, bind, Except.bind, codeAt_spec hc (show 256 < 257 by norm_num), entryOf, e]
  | cons c text ih =>
    intro b t hb
    obtain ⟨b', e, hb'⟩ := holdsC_code hb ((codes[c]?).getD [])
    obtain ⟨b'', e2, hb''⟩ := ih (fun x hx => ht x (by simp [hx])) hb'
    refine ⟨b'', ?_, by simpa [textBits, Tape.write] using hb''⟩
    simp only [encodeC, bind, Except.bind, codeAt_spec hc (ht c (by simp)), entryOf, e, e2]

/-! ### Decode -/

/-- `n` bits from `p` on, zeros behind the end. -/
def ahead (X : List Bool) (p n : Nat) : List Bool := (List.range n).map fun i => X.getD (p + i) false

theorem ahead_eq (X : List Bool) (p n : Nat) : (X.drop p ++ List.replicate n false).take n = ahead X p n := by
  refine List.ext_getElem? fun i => ?_
  by_cases hi : i < n
  · rw [List.getElem?_take_of_lt hi]
    simp only [ahead, List.getElem?_map, List.getElem?_range hi, Option.map_some, List.getD_eq_getElem?_getD]
    rw [List.getElem?_append]
    by_cases hx : p + i < X.length
    · rw [if_pos (by rw [List.length_drop]; omega), List.getElem?_drop, List.getElem?_eq_getElem hx]
      rfl
    · rw [if_neg (by rw [List.length_drop]; omega), List.getElem?_eq_none (l := X) (by omega), List.getElem?_replicate,
        if_pos (by rw [List.length_drop]; omega)]
      rfl
  · rw [List.getElem?_eq_none (by simp; omega), List.getElem?_eq_none (by simp [ahead]; omega)]

theorem window_eq (b : BB) (n : Nat) : window b n = ahead (bitsOf b.bsa) (bitsConsumed b) n := ahead_eq _ _ _

theorem ahead_length (X : List Bool) (p n : Nat) : (ahead X p n).length = n := by simp [ahead]

theorem ahead_append (X : List Bool) (p n m : Nat) : ahead X p (n + m) = ahead X p n ++ ahead X (p + n) m := by
  simp only [ahead, List.range_add, List.map_append, List.map_map, Function.comp_def, Nat.add_assoc]

theorem ahead_drop (X : List Bool) (p n m : Nat) (h : m ≤ n) : (ahead X p n).drop m = ahead X (p + m) (n - m) := by
  obtain ⟨k, rfl⟩ : ∃ k, n = m + k := ⟨n - m, by omega⟩
  rw [ahead_append, List.drop_left' (ahead_length _ _ _), Nat.add_sub_cancel_left]

theorem ahead_prefix {X c r : List Bool} {p n : Nat} (h : X.drop p = c ++ r) (hn : c.length ≤ n) : c <+: ahead X p n := by
  rw [← ahead_eq, h, List.append_assoc, List.take_append, List.take_of_length_le hn]
  exact List.prefix_append _ _

/-- The variables of Decode: the word and the bits to be shifted in are the bits at `q`. -/
structure Ready (b : BB) (word shift q : Nat) : Prop where
  bits : (natBits 32 word).drop shift ++ window b shift = ahead (bitsOf b.bsa) q 32
  pos : bitsConsumed b + shift = q + 32
  le : shift ≤ 32
  boff : b.idxBoff < 8

theorem ready_start (b : BB) (ho : b.idxBoff < 8) : Ready b 0 32 (bitsConsumed b) :=
  ⟨by rw [List.drop_of_length_le (by simp), List.nil_append, window_eq], rfl, le_rfl, ho⟩

/-- One step: the word is looked up, and the object is ready for the bits behind the symbol. -/
theorem ready_step {h : Coder} {codes : List (List Bool)} (hc : IsCoder h codes) {b : BB} {word shift q : Nat} (hr : Ready b word shift q) :
    ∃ i c, codes[i]? = some c ∧ c <+: ahead (bitsOf b.bsa) q 32 ∧
      decodeFromWord h (shiftBitsIntoWord b word shift) = .ok (i, c.length) ∧
      consumeBits b shift = seek b (q + 32) ∧
      Ready (seek b (q + 32)) (shiftBitsIntoWord b word shift) c.length (q + c.length) := by
  obtain ⟨h1, h2⟩ := shiftBits_spec b hr.boff word shift hr.le
  obtain ⟨i, c, e1, e2, e3⟩ := hc.word _ h1
  rw [h2, hr.bits] at e2
  have h32 := hc.short c (List.mem_of_getElem? e1)
  have hcons : bitsConsumed (seek b (q + 32)) = q + 32 := by
    simp only [bitsConsumed, seek]
    omega
  refine ⟨i, c, e1, e2, e3, by rw [consumeBits, hr.pos], ?_, ?_, h32, ?_⟩
  · rw [h2, hr.bits, window_eq, hcons, ahead_drop _ _ _ _ h32]
    change ahead (bitsOf b.bsa) _ _ ++ ahead (bitsOf b.bsa) _ _ = ahead (bitsOf b.bsa) _ _
    have : ahead (bitsOf b.bsa) (q + c.length) 32 = ahead (bitsOf b.bsa) (q + c.length) (32 - c.length + c.length) := by
      congr 1
      omega
    rw [this, ahead_append]
    congr 2
    omega
  · rw [hcons]
    omega
  · simp only [seek]
    omega

/-- The same when the bits are those of a symbol. -/
theorem ready_sym {h : Coder} {codes : List (List Bool)} (hc : IsCoder h codes) {b : BB} {word shift q : Nat} (hr : Ready b word shift q)
    {s : Nat} (hs : s < 257) {r : List Bool} (hb : (bitsOf b.bsa).drop q = textBits codes [s] ++ r) :
    decodeFromWord h (shiftBitsIntoWord b word shift) = .ok (s, (textBits codes [s]).length) ∧
      consumeBits b shift = seek b (q + 32) ∧
      Ready (seek b (q + 32)) (shiftBitsIntoWord b word shift) (textBits codes [s]).length (q + (textBits codes [s]).length) := by
  obtain ⟨i, c, e1, e2, e3, e4, e5⟩ := ready_step hc hr
  obtain ⟨c', hc'⟩ : ∃ c', codes[s]? = some c' := ⟨_, List.getElem?_eq_getElem (by rw [hc.len]; exact hs)⟩
  have htb : textBits codes [s] = c' := by simp [textBits, hc']
  rw [htb] at hb ⊢
  have hp := ahead_prefix hb (hc.short c' (List.mem_of_getElem? hc'))
  have : i = s := by
    rcases List.prefix_or_prefix_of_prefix e2 hp with h1 | h1
    · exact hc.free i s c c' e1 hc' h1
    · exact (hc.free s i c' c hc' e1 h1).symm
  subst this
  rw [e1] at hc'
  cases hc'
  exact ⟨e3, e4, e5⟩

theorem seek_seek (b : BB) (p q : Nat) : seek (seek b p) q = seek b q := rfl

theorem textBits_cons (codes : List (List Bool)) (s : Nat) (text : List Nat) :
    textBits codes (s :: text) = textBits codes [s] ++ textBits codes text := by
  simp [textBits]

theorem textBits_append (codes : List (List Bool)) (s text : List Nat) :
    textBits codes (s ++ text) = textBits codes s ++ textBits codes text := by
  simp [textBits]

theorem drop_step {X c r : List Bool} {q : Nat} (h : X.drop q = c ++ r) : X.drop (q + c.length) = r := by
  rw [← List.drop_drop, h, List.drop_left]

theorem decodeEof_spec {h : Coder} {codes : List (List Bool)} (hc : IsCoder h codes) (text : List Nat) :
    (∀ c ∈ text, c < 256) → ∀ (fuel : Nat) (b : BB) (word shift q : Nat) (out : List Nat) (r : List Bool),
    text.length < fuel → Ready b word shift q → (bitsOf b.bsa).drop q = textBits codes text ++ textBits codes [256] ++ r →
    decodeEof h fuel b word shift out = .ok (seek b (q + (textBits codes text).length + 32), out ++ text) := by
  induction text with
  | nil =>
    intro _ fuel b word shift q out r hf hr hb
    obtain ⟨fuel, rfl⟩ : ∃ k, fuel = k + 1 := ⟨fuel - 1, by simp at hf; omega⟩
    obtain ⟨e1, e2, -⟩ := ready_sym hc hr (s := 256) (r := r) (by norm_num) (by simpa [textBits] using hb)
    simp [decodeEof, bind, Except.bind, e1, e2, pure, Except.pure, textBits]
  | cons c text ih =>
    intro ht fuel b word shift q out r hf hr hb
    obtain ⟨fuel, rfl⟩ : ∃ k, fuel = k + 1 := ⟨fuel - 1, by simp at hf; omega⟩
    have hc256 := ht c (by simp)
    rw [textBits_cons, List.append_assoc, List.append_assoc] at hb
    obtain ⟨e1, e2, e3⟩ := ready_sym hc hr (by omega) hb
    have hd := drop_step hb
    have := ih (fun x hx => ht x (by simp [hx])) fuel (seek b (q + 32)) _ _ _ (out ++ [c]) r (by simp at hf; omega) e3
      (by rw [List.append_assoc]; exact hd)
    simp only [decodeEof, bind, Except.bind, e1, e2]
    rw [if_neg (by omega), Nat.mod_eq_of_lt hc256, this, seek_seek, textBits_cons codes c text, List.length_append, List.append_assoc]
    simp [Nat.add_assoc]

/-- Without an end of string the loop does not end: behind the last byte there are zeros for ever. -/
theorem decodeEof_zeros {h : Coder} {codes : List (List Bool)} (hc : IsCoder h codes) (hz : true ∈ textBits codes [256]) (fuel : Nat) :
    ∀ (b : BB) (word shift q : Nat) (out : List Nat), Ready b word shift q → (∀ x ∈ (bitsOf b.bsa).drop q, x = false) →
    decodeEof h fuel b word shift out = .error .outOfFuel := by
  induction fuel with
  | zero => intros; rfl
  | succ fuel ih =>
    intro b word shift q out hr hb
    obtain ⟨i, c, e1, e2, e3, e4, e5⟩ := ready_step hc hr
    have hall : ∀ x ∈ c, x = false := by
      intro x hx
      have := e2.subset hx
      rw [← ahead_eq] at this
      rcases List.mem_append.1 (List.mem_of_mem_take this) with h1 | h1
      · exact hb x h1
      · exact (List.mem_replicate.1 h1).2
    have hi : i ≠ 256 := by
      rintro rfl
      have : textBits codes [256] = c := by simp [textBits, e1]
      rw [this] at hz
      exact absurd (hall true hz) (by decide)
    simp only [decodeEof, bind, Except.bind, e3, e4, if_neg hi]
    refine ih _ _ _ _ _ e5 fun x hx => hb x ?_
    rw [← List.drop_drop] at hx
    exact List.mem_of_mem_drop hx

theorem decodeEof_open {h : Coder} {codes : List (List Bool)} (hc : IsCoder h codes) (hz : true ∈ textBits codes [256]) (text : List Nat) :
    (∀ c ∈ text, c < 256) → ∀ (fuel : Nat) (b : BB) (word shift q : Nat) (out : List Nat) (r : List Bool),
    Ready b word shift q → (bitsOf b.bsa).drop q = textBits codes text ++ r → (∀ x ∈ r, x = false) →
    decodeEof h fuel b word shift out = .error .outOfFuel := by
  induction text with
  | nil =>
    intro _ fuel b word shift q out r hr hb hz'
    refine decodeEof_zeros hc hz fuel b word shift q out hr ?_
    rw [hb]
    simpa [textBits] using hz'
  | cons c text ih =>
    intro ht fuel b word shift q out r hr hb hz'
    cases fuel with
    | zero => rfl
    | succ fuel =>
    have hc256 := ht c (by simp)
    rw [textBits_cons, List.append_assoc] at hb
    obtain ⟨e1, e2, e3⟩ := ready_sym hc hr (by omega) hb
    simp only [decodeEof, bind, Except.bind, e1, e2]
    rw [if_neg (by omega)]
    exact ih (fun x hx => ht x (by simp [hx])) fuel (seek b (q + 32)) _ _ _ _ r e3 (drop_step hb) hz'

theorem decodeBits_done {h : Coder} {eof : Bool} {fuel : Nat} {b : BB} {word shift : Nat} {left : Int} {out : List Nat} (hl : left ≤ 0) :
    decodeBits h eof fuel b word shift left out = .ok (b, out) := by
  cases fuel <;> rw [decodeBits, if_neg (by omega)]

/-- Limited by bits: as many symbols as are begun in the bits. -/
theorem decodeBits_spec {h : Coder} {codes : List (List Bool)} (hc : IsCoder h codes) (eof : Bool) (text : List Nat) :
    ∀ (last fuel : Nat) (b : BB) (word shift q : Nat) (left : Int) (out : List Nat) (r : List Bool),
    (∀ c ∈ text ++ [last], c < 257 ∧ (eof = true → c ≠ 256)) → text.length < fuel → Ready b word shift q →
    (bitsOf b.bsa).drop q = textBits codes (text ++ [last]) ++ r →
    ((textBits codes text).length : Int) < left → left ≤ (textBits codes (text ++ [last])).length →
    decodeBits h eof fuel b word shift left out =
      .ok (seek b (q + (textBits codes text).length + 32), out ++ (text ++ [last]).map (· % 256)) := by
  induction text with
  | nil =>
    intro last fuel b word shift q left out r ht hf hr hb h1 h2
    obtain ⟨fuel, rfl⟩ : ∃ k, fuel = k + 1 := ⟨fuel - 1, by simp at hf; omega⟩
    obtain ⟨hl, hl'⟩ := ht last (by simp)
    obtain ⟨e1, e2, -⟩ := ready_sym hc hr (s := last) (r := r) hl (by simpa using hb)
    rw [decodeBits, if_pos (by simp [textBits] at h1; omega)]
    simp only [bind, Except.bind, e1, e2]
    rw [if_neg (by rintro ⟨a, b⟩; exact hl' a b), decodeBits_done (by simp only [List.nil_append] at h2; omega)]
    simp [textBits]
  | cons c text ih =>
    intro last fuel b word shift q left out r ht hf hr hb h1 h2
    obtain ⟨fuel, rfl⟩ : ∃ k, fuel = k + 1 := ⟨fuel - 1, by simp at hf; omega⟩
    obtain ⟨hl, hl'⟩ := ht c (by simp)
    rw [List.cons_append, textBits_cons, List.append_assoc] at hb
    obtain ⟨e1, e2, e3⟩ := ready_sym hc hr hl hb
    rw [textBits_cons, List.length_append] at h1
    rw [List.cons_append, textBits_cons, List.length_append] at h2
    have := ih last fuel (seek b (q + 32)) _ _ _ (left - (textBits codes [c]).length) (out ++ [c % 256]) r
      (fun x hx => ht x (by simp only [List.cons_append, List.mem_cons]; exact .inr hx)) (by simp at hf; omega) e3 (drop_step hb)
      (by push_cast at h1; omega) (by push_cast at h2; omega)
    rw [decodeBits, if_pos (by push_cast at h1; omega)]
    simp only [bind, Except.bind, e1, e2]
    rw [if_neg (by rintro ⟨a, b⟩; exact hl' a b), this, seek_seek, textBits_cons codes c text, List.length_append]
    simp [Nat.add_assoc]

/-- Limited by both, the end of string first. -/
theorem decodeBits_eof {h : Coder} {codes : List (List Bool)} (hc : IsCoder h codes) (text : List Nat) :
    ∀ (fuel : Nat) (b : BB) (word shift q : Nat) (left : Int) (out : List Nat) (r : List Bool),
    (∀ c ∈ text, c < 256) → text.length < fuel → Ready b word shift q →
    (bitsOf b.bsa).drop q = textBits codes text ++ textBits codes [256] ++ r →
    ((textBits codes text).length : Int) < left →
    decodeBits h true fuel b word shift left out = .ok (seek b (q + (textBits codes text).length + 32), out ++ text) := by
  induction text with
  | nil =>
    intro fuel b word shift q left out r ht hf hr hb h1
    obtain ⟨fuel, rfl⟩ : ∃ k, fuel = k + 1 := ⟨fuel - 1, by simp at hf; omega⟩
    obtain ⟨e1, e2, -⟩ := ready_sym hc hr (s := 256) (r := r) (by norm_num) (by simpa [textBits] using hb)
    rw [decodeBits, if_pos (by simp [textBits] at h1; omega)]
    simp [bind, Except.bind, e1, e2, pure, Except.pure, textBits]
  | cons c text ih =>
    intro fuel b word shift q left out r ht hf hr hb h1
    obtain ⟨fuel, rfl⟩ : ∃ k, fuel = k + 1 := ⟨fuel - 1, by simp at hf; omega⟩
    have hl := ht c (by simp)
    rw [textBits_cons, List.append_assoc, List.append_assoc] at hb
    obtain ⟨e1, e2, e3⟩ := ready_sym hc hr (by omega) hb
    rw [textBits_cons, List.length_append] at h1
    have := ih fuel (seek b (q + 32)) _ _ _ (left - (textBits codes [c]).length) (out ++ [c]) r
      (fun x hx => ht x (by simp [hx])) (by simp at hf; omega) e3 (by rw [List.append_assoc]; exact drop_step hb)
      (by push_cast at h1; omega)
    rw [decodeBits, if_pos (by push_cast at h1; omega)]
    simp only [bind, Except.bind, e1, e2]
    rw [if_neg (by omega), Nat.mod_eq_of_lt hl, this, seek_seek, textBits_cons codes c text, List.length_append]
    simp [Nat.add_assoc]

/-- Limited by bits, on any bits: no access outside a table, and an end. -/
theorem decodeBits_total {h : Coder} {codes : List (List Bool)} (hc : IsCoder h codes) (eof : Bool) (fuel : Nat) :
    ∀ (b : BB) (word shift q : Nat) (left : Int) (out : List Nat), left ≤ fuel → Ready b word shift q →
    ∃ p more, decodeBits h eof fuel b word shift left out = .ok (seek b p, out ++ more) := by
  induction fuel with
  | zero =>
    intro b word shift q left out hl hr
    refine ⟨bitsConsumed b, [], ?_⟩
    rw [decodeBits, if_neg (by push_cast at hl; omega)]
    have : seek b (bitsConsumed b) = b := by
      have := hr.boff
      simp only [seek, bitsConsumed]
      rw [show (b.idxByte * 8 + b.idxBoff) % 8 = b.idxBoff by omega, show (b.idxByte * 8 + b.idxBoff) / 8 = b.idxByte by omega]
    rw [this, List.append_nil]
  | succ fuel ih =>
    intro b word shift q left out hl hr
    by_cases h0 : left > 0
    · obtain ⟨i, c, e1, e2, e3, e4, e5⟩ := ready_step hc hr
      have hpos : 0 < c.length := List.length_pos_iff.2 (hc.nonempty c (List.mem_of_getElem? e1))
      rw [decodeBits, if_pos h0]
      simp only [bind, Except.bind, e3, e4]
      split
      · exact ⟨q + 32, [], by simp [pure, Except.pure]⟩
      · obtain ⟨p, more, e⟩ := ih (seek b (q + 32)) _ _ _ (left - c.length) (out ++ [i % 256]) (by push_cast at hl; omega) e5
        exact ⟨p, [i % 256] ++ more, by rw [e, seek_seek, List.append_assoc]⟩
    · refine ⟨bitsConsumed b, [], ?_⟩
      rw [decodeBits, if_neg h0]
      have : seek b (bitsConsumed b) = b := by
        have := hr.boff
        simp only [seek, bitsConsumed]
        rw [show (b.idxByte * 8 + b.idxBoff) % 8 = b.idxBoff by omega, show (b.idxByte * 8 + b.idxBoff) / 8 = b.idxByte by omega]
      rw [this, List.append_nil]

end Verif.Cpp
