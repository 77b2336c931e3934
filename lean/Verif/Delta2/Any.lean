import Verif.Delta2.Cut
/-
What the deserialiser makes of any bytes.
-/
namespace Verif.Delta2
open Verif Verif.Bits Verif.Bits.Spec Verif.Huff Verif.Huff.Spec

/-- At half a byte and with bits up to a byte boundary `g` reads at least `k` bits, whole halfs of a byte, and gives a
value with `Q`, or it raises StandardError and leaves less than 16 bits in the bucket `left`. -/
def Safe {α : Type} (g : BitBucket → Py (BitBucket × α)) (left : BitBucket → BitBucket) (k : Nat) (Q : α → Prop) : Prop :=
  ∀ (b : BitBucket) (pre rest : List Bool), At b pre rest → (pre.length + rest.length) % 8 = 0 →
    pre.length % 4 = 0 →
    (g b = .error .standard ∧ ∃ x y, rest = x ++ y ∧ At (left b) (pre ++ x) y ∧ y.length < 16) ∨
    ∃ b' v x y, g b = .ok (b', v) ∧ rest = x ++ y ∧ At b' (pre ++ x) y ∧ k ≤ x.length ∧ x.length % 4 = 0 ∧ Q v

/-! ### Bits -/

theorem split_bits (rest : List Bool) (n : Nat) (h : n ≤ rest.length) : ∃ v y, v < 2 ^ n ∧ rest = natBits n v ++ y := by
  refine ⟨toNat (rest.take n), rest.drop n, ?_, ?_⟩
  · have := toNat_lt (rest.take n)
    rwa [List.length_take, Nat.min_eq_left h] at this
  · have := natBits_toNat n (rest.take n) (by rw [List.length_take, Nat.min_eq_left h])
    rw [this, List.take_append_drop]

theorem any_4 {b : BitBucket} {pre rest : List Bool} (h : At b pre rest) :
    (rest.length < 4 ∧ getBits4 b = .error .standard) ∨
    ∃ b' v x y, v < 2 ^ 4 ∧ getBits4 b = .ok (b', v) ∧ rest = x ++ y ∧ At b' (pre ++ x) y ∧ x.length = 4 := by
  by_cases hl : rest.length < 4
  · exact .inl ⟨hl, at_4_short h hl⟩
  · obtain ⟨v, y, hv, rfl⟩ := split_bits rest 4 (by omega)
    obtain ⟨b', e, h'⟩ := at_4 hv h
    exact .inr ⟨b', v, _, y, hv, e, rfl, h', natBits_length _ _⟩

theorem any_8 {b : BitBucket} {pre rest : List Bool} (h : At b pre rest) :
    (rest.length < 8 ∧ getBits8 b = .error .standard) ∨
    ∃ b' v x y, v < 2 ^ 8 ∧ getBits8 b = .ok (b', v) ∧ rest = x ++ y ∧ At b' (pre ++ x) y ∧ x.length = 8 := by
  by_cases hl : rest.length < 8
  · exact .inl ⟨hl, at_8_short h hl⟩
  · obtain ⟨v, y, hv, rfl⟩ := split_bits rest 8 (by omega)
    obtain ⟨b', e, h'⟩ := at_8 hv h
    exact .inr ⟨b', v, _, y, hv, e, rfl, h', natBits_length _ _⟩

theorem any_16 {b : BitBucket} {pre rest : List Bool} (h : At b pre rest) :
    (rest.length < 16 ∧ getBits16 b = .error .standard) ∨
    ∃ b' v x y, v < 2 ^ 16 ∧ getBits16 b = .ok (b', v) ∧ rest = x ++ y ∧ At b' (pre ++ x) y ∧ x.length = 16 := by
  by_cases hl : rest.length < 16
  · exact .inl ⟨hl, at_16_short h hl⟩
  · obtain ⟨v, y, hv, rfl⟩ := split_bits rest 16 (by omega)
    obtain ⟨b', e, h'⟩ := at_16 hv h
    exact .inr ⟨b', v, _, y, hv, e, rfl, h', natBits_length _ _⟩

theorem any_32 {b : BitBucket} {pre rest : List Bool} (h : At b pre rest) :
    (rest.length < 32 ∧ getBits32 b = .error .standard) ∨
    ∃ b' v x y, v < 2 ^ 32 ∧ getBits32 b = .ok (b', v) ∧ rest = x ++ y ∧ At b' (pre ++ x) y ∧ x.length = 32 := by
  by_cases hl : rest.length < 32
  · exact .inl ⟨hl, at_32_short h hl⟩
  · obtain ⟨v, y, hv, rfl⟩ := split_bits rest 32 (by omega)
    obtain ⟨b', e, h'⟩ := at_32 hv h
    exact .inr ⟨b', v, _, y, hv, e, rfl, h', natBits_length _ _⟩

/-! ### Strings -/

/-- Any bits begin with a code word, or are the beginning of one. -/
theorem code_or_short {codes : List (List Bool)} (hfull : Complete codes) (rest : List Bool) :
    ∃ (i : Nat) (c : List Bool), codes[i]? = some c ∧ (c <+: rest ∨ (rest <+: c ∧ rest.length < c.length)) := by
  obtain ⟨n, hn⟩ := hfull
  obtain ⟨c, hc, hp⟩ := hn (rest ++ List.replicate n false) (by simp)
  obtain ⟨i, hi⟩ := List.mem_iff_getElem?.1 hc
  refine ⟨i, c, hi, ?_⟩
  by_cases hl : c.length ≤ rest.length
  · exact .inl (List.prefix_of_prefix_length_le hp (List.prefix_append _ _) hl)
  · exact .inr ⟨List.prefix_of_prefix_length_le (List.prefix_append _ _) hp (by omega), by omega⟩

theorem walkLeft_short (t : DTree) : ∀ (c x : List Bool) (sym : Nat) {bb : BitBucket} {pre : List Bool},
    Leads t c sym → At bb pre x → x <+: c → x.length < c.length → At (walkLeft t bb) (pre ++ x) [] := by
  induction t with
  | empty => intro c x sym bb pre h; exact absurd h (leads_empty _ _)
  | leaf s =>
    intro c x sym bb pre h ha _ hl
    cases c with
    | nil => simp at hl
    | cons b c => exact absurd h (by intro h; exact h)
  | node l r ihl ihr =>
    intro c x sym bb pre h ha hp hl
    cases c with
    | nil => simp at hl
    | cons b c =>
      cases x with
      | nil =>
        simp only [walkLeft, at_bit_short ha, List.append_nil]
        exact ha
      | cons b' x =>
        obtain ⟨rfl, hp1⟩ := List.cons_prefix_cons.1 hp
        obtain ⟨b1, e1, ha1⟩ := at_bit ha
        simp only [List.length_cons, Nat.add_lt_add_iff_right] at hl
        have e : pre ++ b' :: x = pre ++ [b'] ++ x := by simp
        rw [e]
        simp only [walkLeft, e1]
        cases b' with
        | false => simpa using ihl c x sym h ha1 hp1 hl
        | true => simpa using ihr c x sym h ha1 hp1 hl

theorem decodeLoop_any {h : Huffman} {codes : List (List Bool)} (hc : Codes h codes) (h257 : codes.length = 257)
    (hfull : Complete codes) (fuel : Nat) : ∀ (total : Nat) (out : List Nat) {bb : BitBucket} {pre rest : List Bool},
    At bb pre rest → rest.length < fuel → (∀ c ∈ out, c < 256) →
    (decodeLoop h.tree true (-1) fuel bb total out = .error .standard ∧ At (decodeLeft h.tree fuel bb) (pre ++ rest) []) ∨
    ∃ bb' n s x y, decodeLoop h.tree true (-1) fuel bb total out = .ok (bb', n, s) ∧ rest = x ++ y ∧
      At bb' (pre ++ x) y ∧ 1 ≤ x.length ∧ ∀ c ∈ s, c < 256 := by
  induction fuel with
  | zero => intro total out bb pre rest _ hf; omega
  | succ fuel ih =>
    intro total out bb pre rest ha hf hout
    obtain ⟨i, c, hi, hcase⟩ := code_or_short hfull rest
    have hlt : i < 257 := by
      have := (List.getElem?_eq_some_iff.1 hi).1
      omega
    have hpos : 0 < c.length := List.length_pos_iff.2 (hc.nonempty c (List.mem_of_getElem? hi))
    have hlead := hc.leads i c hi
    rw [decodeLoop, if_pos (by omega)]
    rcases hcase with ⟨y, rfl⟩ | ⟨hp, hl⟩
    · obtain ⟨b1, e1, ha1⟩ := walk_spec h.tree c i hlead ha
      simp only [bind, Except.bind, e1]
      by_cases h256 : i = 256
      · right
        rw [if_pos ⟨trivial, h256⟩]
        exact ⟨b1, _, out, c, y, rfl, rfl, ha1, hpos, hout⟩
      · rw [if_neg (by simp [h256])]
        simp only [List.length_append] at hf
        rcases ih (total + c.length) (out ++ [i]) ha1 (by omega) (by
          intro z hz
          rcases List.mem_append.1 hz with h | h
          · exact hout z h
          · rw [List.mem_singleton] at h; omega) with ⟨e, h⟩ | ⟨bb', n, s, x, z, e, rfl, h, h1, hs⟩
        · left
          refine ⟨e, ?_⟩
          simp only [decodeLeft, e1, if_neg h256]
          simpa using h
        · right
          exact ⟨bb', n, s, c ++ x, z, e, by simp, by simpa using h, by simp; omega, hs⟩
    · left
      simp only [bind, Except.bind, walk_short h.tree c rest i hlead ha hp hl, decodeLeft]
      exact ⟨trivial, walkLeft_short h.tree c rest i hlead ha hp hl⟩

/-- The coder of the strings is complete. -/
structure FullOk (huff : Option Huffman) (codes : List (List Bool)) : Prop extends StrOk huff codes where
  full : Complete codes

theorem advance_any {b : BitBucket} {pre rest : List Bool} (h : At b pre rest) (h8 : (pre.length + rest.length) % 8 = 0) :
    ∃ x y, rest = x ++ y ∧ At (advanceReadPtr b) (pre ++ x) y ∧ (pre.length + x.length) % 8 = 0 := by
  obtain ⟨_, h2⟩ := call_sim h .advance trivial
  simp only [call, step] at h2
  refine ⟨rest.take ((8 - pre.length % 8) % 8), rest.drop ((8 - pre.length % 8) % 8), by simp, ?_, ?_⟩
  · unfold At
    rw [List.append_assoc, List.length_append, List.length_take, Nat.min_eq_left (by omega), List.take_append_drop]
    exact h2
  · rw [List.length_take]
    omega

theorem str_any {huff : Option Huffman} {codes : List (List Bool)} (hk : FullOk huff codes) :
    Safe (unpackStr huff true true) (strLeft huff) 4 (fun s => ∀ c ∈ s, c < 256) := by
  obtain ⟨h, rfl, hc⟩ := hk.ex
  intro b pre rest ha h8 h4
  have hlen := at_len ha
  simp only [unpackStr, if_true, decodeFromBB, bind, Except.bind, strLeft]
  rw [if_neg (by simp)]
  simp only [le_refl, if_true]
  rcases decodeLoop_any hc hk.len hk.full (8 * b.output.length + 1) 0 [] ha (by omega) (by simp) with
    ⟨e, h⟩ | ⟨b1, n, s, x, y, e, rfl, h1, hx, hs⟩
  · left
    rw [e]
    exact ⟨rfl, rest, [], by simp, h, by simp⟩
  · right
    rw [e]
    obtain ⟨x', y', rfl, h2, h3⟩ := advance_any h1 (by simp only [List.length_append] at h8 ⊢; omega)
    simp only [List.length_append] at h3
    exact ⟨_, s, x ++ x', y', rfl, by simp, by simpa using h2, by simp only [List.length_append]; omega,
      by simp only [List.length_append]; omega, hs⟩

/-! ### Indices -/

theorem varLoop_any (fuel : Nat) : ∀ (n shift acc : Nat) {b : BitBucket} {pre rest : List Bool}, At b pre rest →
    rest.length < 4 * fuel →
    (unpackVarLoop fuel b n shift acc = .error .standard ∧
      ∃ x y, rest = x ++ y ∧ At (varLoopLeft fuel b n) (pre ++ x) y ∧ y.length < 16) ∨
    ∃ b' v x y, unpackVarLoop fuel b n shift acc = .ok (b', v) ∧ rest = x ++ y ∧ At b' (pre ++ x) y ∧
      x.length % 4 = 0 ∧ 0 ≤ v := by
  induction fuel with
  | zero =>
    intro n shift acc b pre rest ha hf
    omega
  | succ fuel ih =>
    intro n shift acc b pre rest ha hf
    by_cases h8 : n &&& 8 ≠ 0
    · rw [unpackVarLoop, if_pos h8, varLoopLeft, if_pos h8]
      rcases any_4 ha with ⟨hl, e⟩ | ⟨b1, v, x, y, hv, e, rfl, h1, hx⟩
      · left
        simp only [bind, Except.bind, e]
        exact ⟨trivial, [], rest, rfl, by simpa using ha, by omega⟩
      · simp only [bind, Except.bind, e]
        simp only [List.length_append] at hf
        rcases ih v (shift + 3) (acc + ((v &&& 7) <<< (shift + 3))) h1 (by omega) with
          ⟨e2, x2, y2, rfl, h2, hy⟩ | ⟨b2, w, x2, y2, e2, rfl, h2, h4, hw⟩
        · exact .inl ⟨e2, x ++ x2, y2, by simp, by simpa using h2, hy⟩
        · exact .inr ⟨b2, w, x ++ x2, y2, e2, by simp, by simpa using h2, by simp only [List.length_append]; omega, hw⟩
    · right
      rw [unpackVarLoop, if_neg h8]
      exact ⟨b, _, [], rest, rfl, rfl, by simpa using ha, rfl, by omega⟩

theorem int_any (p : IntPack) : Safe p.unpack p.left 4 (IntOk p) := by
  intro b pre rest ha h8 h4
  cases p with
  | int8 =>
    rcases any_8 ha with ⟨hl, e⟩ | ⟨b1, v, x, y, hv, e, rfl, h1, hx⟩
    · left
      simp only [IntPack.unpack, unpackInt8, bind, Except.bind, e]
      exact ⟨trivial, [], rest, rfl, by simpa [IntPack.left] using ha, by omega⟩
    · right
      simp only [IntPack.unpack, unpackInt8, bind, Except.bind, e]
      exact ⟨b1, v, x, y, rfl, rfl, h1, by omega, by omega, by omega, by exact_mod_cast hv⟩
  | int16 =>
    rcases any_16 ha with ⟨hl, e⟩ | ⟨b1, v, x, y, hv, e, rfl, h1, hx⟩
    · left
      simp only [IntPack.unpack, unpackInt16, bind, Except.bind, e]
      exact ⟨trivial, [], rest, rfl, by simpa [IntPack.left] using ha, by omega⟩
    · right
      simp only [IntPack.unpack, unpackInt16, bind, Except.bind, e]
      exact ⟨b1, v, x, y, rfl, rfl, h1, by omega, by omega, by omega, by exact_mod_cast hv⟩
  | varint =>
    have hlen := at_len ha
    simp only [IntPack.unpack, unpackVarInt, IntPack.left, bind, Except.bind]
    rcases any_4 ha with ⟨hl, e⟩ | ⟨b1, v, x, y, hv, e, rfl, h1, hx⟩
    · left
      simp only [e]
      exact ⟨trivial, [], rest, rfl, by simpa using ha, by omega⟩
    · simp only [e]
      by_cases h15 : v < 15
      · right
        rw [if_pos h15]
        exact ⟨b1, v, x, y, rfl, rfl, h1, by omega, by omega, by simp [IntOk]⟩
      · rw [if_neg h15]
        rcases any_4 h1 with ⟨hl, e2⟩ | ⟨b2, n, x2, y2, hn, e2, rfl, h2, hx2⟩
        · left
          simp only [e2]
          exact ⟨trivial, x, y, rfl, by simpa using h1, by omega⟩
        · simp only [e2]
          simp only [List.length_append] at hlen
          rcases varLoop_any (8 * b.output.length) n 0 (v + ((n &&& 7) <<< 0)) h2 (by omega) with
            ⟨e3, x3, y3, rfl, h3, hy⟩ | ⟨b3, w, x3, y3, e3, rfl, h3, h4', hw⟩
          · exact .inl ⟨e3, x ++ (x2 ++ x3), y3, by simp, by simpa using h3, hy⟩
          · exact .inr ⟨b3, w, x ++ (x2 ++ x3), y3, e3, by simp, by simpa using h3, by simp only [List.length_append]; omega,
              by simp only [List.length_append]; omega, hw⟩

/-! ### Operations -/

/-- `op` is `dst` with the field set. -/
def Sets (p : IntPack) (dst : Op) (f : Field) (op : Op) : Prop :=
  op.opcode = dst.opcode ∧ (ValsOk p dst → ValsOk p op) ∧ ∀ g, op.has g = (dst.has g || decide (g = f))

theorem field_any {p : Packing} {codes : List (List Bool)} (hk : FullOk p.huff codes) (dst : Op) (f : Field) :
    Safe (fun b => unpackField p b dst f) (fun b => fieldLeft p b f) 4 (Sets p.ints dst f) := by
  intro b pre rest ha h8 h4
  cases f with
  | index =>
    rcases int_any p.ints b pre rest ha h8 h4 with ⟨e, h⟩ | ⟨b1, v, x, y, e, h1, h2, h3, h5, hv⟩
    · left
      simp only [unpackField, bind, Except.bind, e, fieldLeft]
      exact ⟨trivial, h⟩
    · right
      simp only [unpackField, bind, Except.bind, e]
      refine ⟨b1, _, x, y, rfl, h1, h2, h3, h5, rfl, fun h => ⟨?_, h.start, h.key, h.val⟩, ?_⟩
      · rintro w ⟨⟩; exact hv
      · intro g; cases g <;> simp [Op.has]
  | indexStart =>
    rcases int_any p.ints b pre rest ha h8 h4 with ⟨e, h⟩ | ⟨b1, v, x, y, e, h1, h2, h3, h5, hv⟩
    · left
      simp only [unpackField, bind, Except.bind, e, fieldLeft]
      exact ⟨trivial, h⟩
    · right
      simp only [unpackField, bind, Except.bind, e]
      refine ⟨b1, _, x, y, rfl, h1, h2, h3, h5, rfl, fun h => ⟨h.index, ?_, h.key, h.val⟩, ?_⟩
      · rintro w ⟨⟩; exact hv
      · intro g; cases g <;> simp [Op.has]
  | key =>
    rcases str_any hk b pre rest ha h8 h4 with ⟨e, h⟩ | ⟨b1, v, x, y, e, h1, h2, h3, h5, hv⟩
    · left
      simp only [unpackField, bind, Except.bind, e, fieldLeft]
      exact ⟨trivial, h⟩
    · right
      simp only [unpackField, bind, Except.bind, e]
      refine ⟨b1, _, x, y, rfl, h1, h2, h3, h5, rfl, fun h => ⟨h.index, h.start, ?_, h.val⟩, ?_⟩
      · rintro w ⟨⟩; exact hv
      · intro g; cases g <;> simp [Op.has]
  | val =>
    rcases str_any hk b pre rest ha h8 h4 with ⟨e, h⟩ | ⟨b1, v, x, y, e, h1, h2, h3, h5, hv⟩
    · left
      simp only [unpackField, bind, Except.bind, e, fieldLeft]
      exact ⟨trivial, h⟩
    · right
      simp only [unpackField, bind, Except.bind, e]
      refine ⟨b1, _, x, y, rfl, h1, h2, h3, h5, rfl, fun h => ⟨h.index, h.start, h.key, ?_⟩, ?_⟩
      · rintro w ⟨⟩; exact hv
      · intro g; cases g <;> simp [Op.has]

theorem fields_any {p : Packing} {codes : List (List Bool)} (hk : FullOk p.huff codes) (fields fs : List Field) : ∀ dst : Op,
    Safe (fun b => readFields p fields fs b dst) (fun b => fieldsLeft p fields fs b dst)
      (if ∃ f ∈ fs, f ∈ fields then 4 else 0) (fun op => op.opcode = dst.opcode ∧ (ValsOk p.ints dst → ValsOk p.ints op) ∧
        ∀ g, op.has g = (dst.has g || decide (g ∈ fs ∧ g ∈ fields))) := by
  induction fs with
  | nil =>
    intro dst b pre rest ha h8 h4
    right
    exact ⟨b, dst, [], rest, rfl, rfl, by simpa using ha, by simp, rfl, rfl, id, by simp⟩
  | cons f fs ih =>
    intro dst b pre rest ha h8 h4
    by_cases hm : f ∈ fields
    · simp only [readFields, fieldsLeft, if_pos hm, bind, Except.bind]
      rcases field_any hk dst f b pre rest ha h8 h4 with ⟨e, h⟩ | ⟨b1, v, x, y, e, rfl, h2, h3, h5, hc, hv, hh⟩
      · left
        simp only at e h
        simp only [e]
        exact ⟨trivial, h⟩
      · simp only at e
        simp only [e]
        simp only [List.length_append] at h8
        rcases ih v b1 _ y h2 (by simp only [List.length_append]; omega) (by simp only [List.length_append]; omega) with
          ⟨e, x2, y2, rfl, h6, h7⟩ | ⟨b2, w, x2, y2, e, rfl, h6, h7, h9, hc2, hv2, hh2⟩
        · simp only at e h6
          exact .inl ⟨e, x ++ x2, y2, by simp, by simpa using h6, h7⟩
        · simp only at e
          refine .inr ⟨b2, w, x ++ x2, y2, e, by simp, by simpa using h6, ?_, by simp only [List.length_append]; omega,
            by rw [hc2, hc], fun h => hv2 (hv h), ?_⟩
          · split <;> simp only [List.length_append] <;> omega
          · intro g
            rw [hh2, hh, Bool.or_assoc]
            congr 1
            by_cases hg : g = f
            · subst hg; simp [hm]
            · simp [hg]
    · simp only [readFields, fieldsLeft, if_neg hm]
      rcases ih dst b pre rest ha h8 h4 with h | ⟨b1, v, x, y, e, h1, h2, h3, h5, hc, hv, hh⟩
      · exact .inl h
      · refine .inr ⟨b1, v, x, y, e, h1, h2, ?_, h5, hc, hv, ?_⟩
        · simpa [hm] using h3
        · intro g
          rw [hh]
          congr 1
          by_cases hg : g = f
          · subst hg; simp [hm]
          · simp [hg]

theorem op_any {p : Packing} {codes : List (List Bool)} (hk : FullOk p.huff codes) (oc : Opcode) :
    Safe (fun b => readFields p oc.fields packingOrder b { opcode := oc })
      (fun b => fieldsLeft p oc.fields packingOrder b { opcode := oc }) 4 (OpOk p.ints) := by
  intro b pre rest ha h8 h4
  rcases fields_any hk oc.fields packingOrder { opcode := oc } b pre rest ha h8 h4 with
    h | ⟨b1, v, x, y, e, h1, h2, h3, h5, hc, hv, hh⟩
  · exact .inl h
  · refine .inr ⟨b1, v, x, y, e, h1, h2, ?_, h5, ?_, hv ⟨by simp, by simp, by simp, by simp⟩⟩
    · have : ∃ f ∈ packingOrder, f ∈ oc.fields := by cases oc <;> decide
      rwa [if_pos this] at h3
    · intro f
      rw [hh, hc]
      cases oc <;> cases f <;> rfl

theorem ops_any {p : Packing} {codes : List (List Bool)} (hk : FullOk p.huff codes) (oc : Opcode) (n : Nat) :
    ∀ (acc : List Op) {b : BitBucket} {pre rest : List Bool}, At b pre rest → (pre.length + rest.length) % 8 = 0 →
      pre.length % 4 = 0 → ∃ ops x y, rest = x ++ y ∧ x.length % 4 = 0 ∧ 4 * ops.length ≤ x.length ∧ ops.length ≤ n ∧
        (∀ op ∈ ops, OpOk p.ints op) ∧
        ((readOps p oc n b acc = (acc ++ ops, none) ∧
          ∃ x' y', rest = x' ++ y' ∧ At (opsLeft p oc n b) (pre ++ x') y' ∧ y'.length < 16) ∨
        ∃ b', readOps p oc n b acc = (acc ++ ops, some b') ∧ At b' (pre ++ x) y ∧ ops.length = n) := by
  induction n with
  | zero =>
    intro acc b pre rest ha h8 h4
    exact ⟨[], [], rest, rfl, rfl, by simp, by simp, by simp, .inr ⟨b, by simp [readOps], by simpa using ha, rfl⟩⟩
  | succ n ih =>
    intro acc b pre rest ha h8 h4
    rcases op_any hk oc b pre rest ha h8 h4 with ⟨e, h⟩ | ⟨b1, v, x, y, e, rfl, h2, h3, h5, hv⟩
    · simp only at e h
      refine ⟨[], [], rest, rfl, rfl, by simp, by simp, by simp, .inl ⟨by simp [readOps, e], ?_⟩⟩
      simp only [opsLeft, e]
      exact h
    · simp only at e
      simp only [List.length_append] at h8
      obtain ⟨ops, x2, y2, rfl, g1, g2, g3, g4, g5⟩ := ih (acc ++ [v]) h2 (by simp only [List.length_append]; omega)
        (by simp only [List.length_append]; omega)
      refine ⟨v :: ops, x ++ x2, y2, by simp, by simp only [List.length_append]; omega,
        by simp only [List.length_append, List.length_cons]; omega, by simp only [List.length_cons]; omega, ?_, ?_⟩
      · intro op ho
        rcases List.mem_cons.1 ho with rfl | ho
        · exact hv
        · exact g4 op ho
      · simp only [readOps, opsLeft, e]
        rcases g5 with ⟨e2, x3, y3, e3, h6, h7⟩ | ⟨b2, e2, h6, h7⟩
        · refine .inl ⟨by simpa using e2, x ++ x3, y3, by simp [e3], by simpa using h6, h7⟩
        · exact .inr ⟨b2, by simpa using e2, by simpa using h6, by simp [h7]⟩

/-! ### Blocks -/

/-- What is read of a block: if it raises then less than 16 bits are left, or only a byte has been read. -/
theorem block_any {p : Packing} {codes : List (List Bool)} (hk : FullOk p.huff codes) (acc : List Op) {b : BitBucket}
    {pre rest : List Bool} (ha : At b pre rest) (h8 : (pre.length + rest.length) % 8 = 0) (h4 : pre.length % 4 = 0) :
    ∃ ops x y, rest = x ++ y ∧ x.length % 4 = 0 ∧ 9 * ops.length ≤ 2 * x.length ∧ (∀ op ∈ ops, OpOk p.ints op) ∧
      ((readBlock p b acc = (acc ++ ops, none) ∧
        ∃ x' y', rest = x' ++ y' ∧ At (blockLeft p b) (pre ++ x') y' ∧
          (y'.length < 16 ∨ ops = [] ∧ x'.length % 4 = 0)) ∨
      ∃ b', readBlock p b acc = (acc ++ ops, some b') ∧ At b' (pre ++ x) y ∧ 12 ≤ x.length) := by
  rcases any_8 ha with ⟨hl, e⟩ | ⟨b1, v, x, y, hv, e, rfl, h1, hx⟩
  · refine ⟨[], [], rest, rfl, rfl, by simp, by simp, .inl ⟨by simp [readBlock, e], [], rest, rfl, ?_, .inl (by omega)⟩⟩
    simpa [blockLeft, e] using ha
  · simp only [readBlock, blockLeft, e]
    cases ho : opcodeOf (v >>> 4) with
    | none =>
      exact ⟨[], [], x ++ y, rfl, rfl, by simp, by simp, .inl ⟨by simp, x, y, rfl, by simpa using h1,
        .inr ⟨rfl, by omega⟩⟩⟩
    | some oc =>
      simp only [List.length_append] at h8
      obtain ⟨ops, x2, y2, rfl, g1, g2, g3, g4, g5⟩ := ops_any hk oc ((v &&& 0x0f) + 1) acc h1
        (by simp only [List.length_append]; omega) (by simp only [List.length_append]; omega)
      have hand : v &&& 0x0f ≤ 15 := Nat.and_le_right
      refine ⟨ops, x ++ x2, y2, by simp, by simp only [List.length_append]; omega,
        by simp only [List.length_append]; omega, g4, ?_⟩
      rcases g5 with ⟨e2, x3, y3, e3, h6, h7⟩ | ⟨b2, e2, h6, h7⟩
      · exact .inl ⟨e2, x ++ x3, y3, by simp [e3], by simpa using h6, .inl h7⟩
      · refine .inr ⟨b2, e2, by simpa using h6, by simp only [List.length_append]; omega⟩

theorem readOps_rest (p : Packing) (oc : Opcode) (n : Nat) : ∀ (b : BitBucket) (ops ops' : List Op),
    (readOps p oc n b ops).2 = (readOps p oc n b ops').2 := by
  induction n with
  | zero => intro b ops ops'; rfl
  | succ n ih =>
    intro b ops ops'
    simp only [readOps]
    split
    · exact ih _ _ _
    · rfl

theorem readBlock_rest (p : Packing) (b : BitBucket) (ops ops' : List Op) :
    (readBlock p b ops).2 = (readBlock p b ops').2 := by
  simp only [readBlock]
  split
  · rfl
  · split
    · rfl
    · exact readOps_rest _ _ _ _ _ _

theorem blocks_any {p : Packing} {codes : List (List Bool)} (hk : FullOk p.huff codes) (fuel : Nat) : ∀ (acc : List Op)
    (lim : Int) {b : BitBucket} {pre rest : List Bool}, At b pre rest → (pre.length + rest.length) % 8 = 0 →
      pre.length % 4 = 0 → rest.length < fuel → ∃ ops x y, rest = x ++ y ∧ x.length % 4 = 0 ∧
        9 * ops.length ≤ 2 * x.length ∧ (∀ op ∈ ops, OpOk p.ints op) ∧
        ((readBlocks p fuel b lim acc = .ok (acc ++ ops, none) ∧
          ∃ x' y', rest = x' ++ y' ∧ At (blocksLeft p fuel b) (pre ++ x') y' ∧
            (y'.length < 16 ∨ 9 * ops.length ≤ 2 * x'.length ∧ x'.length % 4 = 0)) ∨
        ∃ b', readBlocks p fuel b lim acc = .ok (acc ++ ops, some b') ∧ At b' (pre ++ x) y) := by
  induction fuel with
  | zero => intro acc lim b pre rest _ _ _ hf; omega
  | succ fuel ih =>
    intro acc lim b pre rest ha h8 h4 hf
    unfold readBlocks
    by_cases hlim : lim > 8
    · rw [if_pos hlim]
      obtain ⟨ops, x, y, rfl, g1, g2, g3, g4⟩ := block_any hk acc ha h8 h4
      have hr := readBlock_rest p b [] acc
      rcases g4 with ⟨e, x', y', e', h5, h6⟩ | ⟨b1, e, h5, h6⟩
      · refine ⟨ops, x, y, rfl, g1, g2, g3, .inl ⟨by simp only [e], x', y', e', ?_, ?_⟩⟩
        · rw [e] at hr
          simp only [blocksLeft]
          cases hb : readBlock p b [] with
          | mk o r =>
            rw [hb] at hr
            simp only at hr
            subst hr
            exact h5
        · rcases h6 with h6 | ⟨rfl, h6⟩
          · exact .inl h6
          · exact .inr ⟨by simp, h6⟩
      · simp only [List.length_append] at h8 hf
        obtain ⟨ops2, x2, y2, rfl, k1, k2, k3, k4⟩ := ih (acc ++ ops) (lim - (bitsRemaining b - bitsRemaining b1)) h5
          (by simp only [List.length_append]; omega) (by simp only [List.length_append]; omega) (by omega)
        have hleft : blocksLeft p (fuel + 1) b = blocksLeft p fuel b1 := by
          rw [e] at hr
          simp only [blocksLeft]
          cases hb : readBlock p b [] with
          | mk o r =>
            rw [hb] at hr
            simp only at hr
            subst hr
            rfl
        refine ⟨ops ++ ops2, x ++ x2, y2, by simp, by simp only [List.length_append]; omega,
          by simp only [List.length_append]; omega, ?_, ?_⟩
        · intro op ho
          rcases List.mem_append.1 ho with ho | ho
          · exact g3 op ho
          · exact k3 op ho
        · simp only [e, hleft]
          rcases k4 with ⟨e2, x3, y3, e3, h7, h9⟩ | ⟨b2, e2, h7⟩
          · refine .inl ⟨by simpa using e2, x ++ x3, y3, by simp [e3], by simpa using h7, ?_⟩
            rcases h9 with h9 | ⟨h9, h10⟩
            · exact .inl h9
            · exact .inr ⟨by simp only [List.length_append]; omega, by simp only [List.length_append]; omega⟩
          · exact .inr ⟨b2, by simpa using e2, by simpa using h7⟩
    · rw [if_neg hlim]
      exact ⟨[], [], rest, rfl, rfl, by simp, by simp, .inr ⟨b, by simp, by simpa using ha⟩⟩

/-! ### Frames -/

theorem frames_any {p : Packing} {codes : List (List Bool)} (hk : FullOk p.huff codes) (fuel : Nat) : ∀ (acc : List Op)
    {b : BitBucket} {pre rest : List Bool}, At b pre rest → (pre.length + rest.length) % 8 = 0 → pre.length % 4 = 0 →
      rest.length < 72 * fuel + 16 →
      (readFrames p (fuel + 1) b acc = .error .standard) ∨
      ∃ gid ops, readFrames p (fuel + 1) b acc = .ok (gid, acc ++ ops) ∧ gid < 256 ∧ 9 * ops.length + 144 ≤ 2 * rest.length ∧
        ∀ op ∈ ops, OpOk p.ints op := by
  induction fuel with
  | zero =>
    intro acc b pre rest ha h8 h4 hf
    left
    simp only [readFrames, bind, Except.bind, at_16_short ha (by omega)]
  | succ fuel ih =>
    intro acc b pre rest ha h8 h4 hf
    rw [readFrames]
    rcases any_16 ha with ⟨_, e1⟩ | ⟨b1, len, x1, y1, _, e1, rfl, a1, l1⟩
    · left; simp only [bind, Except.bind, e1]
    rcases any_8 a1 with ⟨_, e2⟩ | ⟨b2, typ, x2, y2, _, e2, rfl, a2, l2⟩
    · left; simp only [bind, Except.bind, e1, e2]
    rcases any_8 a2 with ⟨_, e3⟩ | ⟨b3, flags, x3, y3, _, e3, rfl, a3, l3⟩
    · left; simp only [bind, Except.bind, e1, e2, e3]
    rcases any_32 a3 with ⟨_, e4⟩ | ⟨b4, sid, x4, y4, _, e4, rfl, a4, l4⟩
    · left; simp only [bind, Except.bind, e1, e2, e3, e4]
    rcases any_8 a4 with ⟨_, e5⟩ | ⟨b5, gid, x5, y5, hgid, e5, rfl, a5, l5⟩
    · left; simp only [bind, Except.bind, e1, e2, e3, e4, e5]
    simp only [bind, Except.bind, e1, e2, e3, e4, e5]
    simp only [List.length_append] at h8 hf
    have hlen := a5.bits.length
    simp only [List.length_append] at hlen
    obtain ⟨ops, x, y, e, g1, g2, g3, g4⟩ := blocks_any hk (8 * b5.output.length) acc (len * 8 : Nat) a5
      (by simp only [List.length_append]; omega) (by simp only [List.length_append]; omega) (by omega)
    have hl : y5.length = x.length + y.length := by rw [e, List.length_append]
    by_cases hfl : flags = 0
    · rcases g4 with ⟨e6, x', y', e', h7, h9⟩ | ⟨b6, e6, h7⟩
      · simp only [e6, if_pos hfl]
        have hl' : y5.length = x'.length + y'.length := by rw [e', List.length_append]
        rcases h9 with h9 | ⟨h9, h10⟩
        · left
          simp only [readFrames, bind, Except.bind, at_16_short h7 h9]
        · rcases ih (acc ++ ops) h7 (by simp only [List.length_append]; omega) (by simp only [List.length_append]; omega)
            (by omega) with e7 | ⟨gid', ops', e7, k1, k2, k3⟩
          · exact .inl e7
          · refine .inr ⟨gid', ops ++ ops', by simpa using e7, k1, by simp only [List.length_append]; omega, ?_⟩
            intro op ho
            rcases List.mem_append.1 ho with ho | ho
            · exact g3 op ho
            · exact k3 op ho
      · simp only [e6, if_pos hfl]
        rcases ih (acc ++ ops) h7 (by simp only [List.length_append]; omega) (by simp only [List.length_append]; omega)
          (by omega) with e7 | ⟨gid', ops', e7, k1, k2, k3⟩
        · exact .inl e7
        · refine .inr ⟨gid', ops ++ ops', by simpa using e7, k1, by simp only [List.length_append]; omega, ?_⟩
          intro op ho
          rcases List.mem_append.1 ho with ho | ho
          · exact g3 op ho
          · exact k3 op ho
    · have : ∃ r, readBlocks p (8 * b5.output.length) b5 (len * 8 : Nat) acc = .ok (acc ++ ops, r) := by
        rcases g4 with ⟨e6, _⟩ | ⟨b6, e6, _⟩
        · exact ⟨_, e6⟩
        · exact ⟨_, e6⟩
      obtain ⟨r, e6⟩ := this
      simp only [e6, if_neg hfl]
      exact .inr ⟨gid, ops, rfl, by omega, by simp only [List.length_append]; omega, g3⟩

theorem deserialize_any {p : Packing} {codes : List (List Bool)} (hk : FullOk p.huff codes) (bytes : List Nat)
    (hb : ∀ x ∈ bytes, x < 256) :
    realOpsToOps p bytes = .error .standard ∨ ∃ gid ops, realOpsToOps p bytes = .ok (gid, ops) ∧ gid < 256 ∧
      9 * ops.length + 144 ≤ 16 * bytes.length ∧ ∀ op ∈ ops, OpOk p.ints op := by
  obtain ⟨b, w, e⟩ := deserialize_bits p bytes hb
  have hst := w.start
  have hl : (bitsOf bytes).length = 8 * bytes.length := bitsOf_length _
  have hlen := at_len hst
  rw [e]
  rcases frames_any hk b.output.length [] hst (by simp) (by simp) (by omega) with h | ⟨gid, ops, h, h1, h2, h3⟩
  · exact .inl h
  · exact .inr ⟨gid, ops, by simpa using h, h1, by omega, h3⟩

end Verif.Delta2
