import Verif.Delta2.WireLemmas
import Verif.Delta2.CutSpec
/-
What the deserialiser makes of a frame that has been cut off.
-/
namespace Verif.Delta2
open Verif Verif.Bits Verif.Bits.Spec Verif.Huff Verif.Huff.Spec

/-- `g` raises if only a part of these bits is left, up to the end of a byte. -/
def Short {α : Type} (g : BitBucket → Py (BitBucket × α)) (e : Emit) : Prop :=
  ∀ (b : BitBucket) (pre x : List Bool), At b pre x → x <+: e pre.length → x.length < (e pre.length).length →
    (pre.length + x.length) % 8 = 0 → g b = .error .standard

theorem prefix_append_cases {α : Type} {x a c : List α} (h : x <+: a ++ c) :
    (x.length < a.length ∧ x <+: a) ∨ ∃ y, x = a ++ y ∧ y <+: c := by
  by_cases hl : x.length < a.length
  · exact Or.inl ⟨hl, List.prefix_of_prefix_length_le h (List.prefix_append a c) (Nat.le_of_lt hl)⟩
  · obtain ⟨y, rfl⟩ := List.prefix_of_prefix_length_le (List.prefix_append a c) h (Nat.le_of_not_lt hl)
    exact Or.inr ⟨y, rfl, (List.prefix_append_right_inj a).1 h⟩

theorem at_4_short {b : BitBucket} {pre rest : List Bool} (h : At b pre rest) (hn : rest.length < 4) :
    getBits4 b = .error .standard :=
  at_op_short h .get4 4 getBits4 (fun _ => rfl) (fun _ => rfl) trivial hn

theorem at_16_short {b : BitBucket} {pre rest : List Bool} (h : At b pre rest) (hn : rest.length < 16) :
    getBits16 b = .error .standard :=
  at_op_short h .get16 16 getBits16 (fun _ => rfl) (fun _ => rfl) trivial hn

theorem at_32_short {b : BitBucket} {pre rest : List Bool} (h : At b pre rest) (hn : rest.length < 32) :
    getBits32 b = .error .standard :=
  at_op_short h .get32 32 getBits32 (fun _ => rfl) (fun _ => rfl) trivial hn

theorem at_bit_short {b : BitBucket} {pre : List Bool} (h : At b pre []) : getBit b = .error .standard :=
  at_op_short h .getBit 1 getBit (fun _ => rfl) (fun _ => rfl) trivial (by simp)

/-! ### Strings -/

theorem walk_short (t : DTree) : ∀ (c x : List Bool) (sym : Nat) {bb : BitBucket} {pre : List Bool},
    Leads t c sym → At bb pre x → x <+: c → x.length < c.length → walk t bb = .error .standard := by
  induction t with
  | empty => intro c x sym bb pre h; exact absurd h (leads_empty _ _)
  | leaf s =>
    intro c x sym bb pre h ha _ hl
    cases c with
    | nil => simp at hl
    | cons b c => exact absurd h (by intro h; exact h)
  | node l r ihl ihr =>
    intro c x sym bb pre h ha hp hl
    cases c with
    | nil => simp at hl
    | cons b c =>
      cases x with
      | nil => simp only [walk, bind, Except.bind, at_bit_short ha]
      | cons b' x =>
        obtain ⟨rfl, hp1⟩ := List.cons_prefix_cons.1 hp
        obtain ⟨b1, e1, ha1⟩ := at_bit ha
        simp only [List.length_cons, Nat.add_lt_add_iff_right] at hl
        cases b' with
        | false =>
          have := ihl c x sym h ha1 hp1 hl
          simp only [walk, bind, Except.bind, e1]
          simp [this, Except.map]
        | true =>
          have := ihr c x sym h ha1 hp1 hl
          simp only [walk, bind, Except.bind, e1]
          simp [this, Except.map]

theorem decodeLoop_short {h : Huffman} {codes : List (List Bool)} (hc : Codes h codes) (h256 : 256 < codes.length)
    (text : List Nat) : ∀ (_ : ∀ c ∈ text, c < 256) (fuel total : Nat) (out : List Nat) {bb : BitBucket}
    {pre x : List Bool}, At bb pre x → x <+: textBits codes (text ++ [256]) →
    x.length < (textBits codes (text ++ [256])).length → x.length < fuel →
    decodeLoop h.tree true (-1) fuel bb total out = .error .standard := by
  induction text with
  | nil =>
    intro ht fuel total out bb pre x ha hp hl hf
    simp only [List.nil_append, textBits_cons] at hp hl
    simp only [textBits, List.flatMap_nil, List.append_nil] at hp hl
    obtain ⟨fuel, rfl⟩ : ∃ k, fuel = k + 1 := ⟨fuel - 1, by omega⟩
    have e := walk_short h.tree _ x 256 (hc.leads 256 _ (codes_get h256)) ha hp hl
    rw [decodeLoop, if_pos (by omega)]
    simp only [bind, Except.bind, e]
  | cons c text ih =>
    intro ht fuel total out bb pre x ha hp hl hf
    have hlt : c < 256 := ht c (by simp)
    have hpos := code_pos hc (c := c) (by omega)
    simp only [List.cons_append, textBits_cons, List.length_append] at hp hl
    obtain ⟨fuel, rfl⟩ : ∃ k, fuel = k + 1 := ⟨fuel - 1, by omega⟩
    rcases prefix_append_cases hp with ⟨hl', hp'⟩ | ⟨y, rfl, hp'⟩
    · have e := walk_short h.tree _ x c (hc.leads c _ (codes_get (by omega))) ha hp' hl'
      rw [decodeLoop, if_pos (by omega)]
      simp only [bind, Except.bind, e]
    · obtain ⟨bb1, e1, ha1⟩ := walk_spec h.tree _ c (hc.leads c _ (codes_get (by omega))) ha
      simp only [List.length_append] at hl hf
      have e2 := ih (fun x hx => ht x (by simp [hx])) fuel
        (total + ((codes[c]?).getD []).length) (out ++ [c]) ha1 hp' (by omega) (by omega)
      rw [decodeLoop, if_pos (by omega)]
      simp only [bind, Except.bind, e1]
      rw [if_neg (by intro h; omega), e2]

theorem str_short {huff : Option Huffman} {codes : List (List Bool)} (hk : StrOk huff codes) {s : Str}
    (hs : ∀ c ∈ s, c < 256) : Short (unpackStr huff true true) (strE codes s) := by
  obtain ⟨h, rfl, hc⟩ := hk.ex
  intro b pre x ha hp hl h8
  simp only [strE, strBits, if_true] at hp hl
  generalize hT : textBits codes (s ++ [256]) = T at hp hl
  have hpad : (padZeros (pre.length + T.length)).length = (8 - (pre.length + T.length) % 8) % 8 := by simp [padZeros]
  simp only [List.length_append, hpad] at hl
  have hx : x.length < T.length := by omega
  have hxp : x <+: T := List.prefix_of_prefix_length_le hp (List.prefix_append _ _) (Nat.le_of_lt hx)
  have hlen := at_len ha
  rw [← hT] at hx hxp
  have e := decodeLoop_short hc (by rw [hk.len]; omega) s hs (8 * b.output.length + 1) 0 [] ha hxp hx (by omega)
  simp only [unpackStr, if_true, decodeFromBB, bind, Except.bind]
  rw [if_neg (by simp)]
  simp only [le_refl, if_true, e]

/-! ### Indices -/

theorem tail_short (fuel : Nat) : ∀ (v shift acc fuel' : Nat) {b : BitBucket} {pre x : List Bool},
    At b pre x → x <+: tailBits fuel v → x.length < (tailBits fuel v).length → v ≤ fuel → x.length ≤ 4 * fuel' →
    (do let (b, n) ← getBits4 b
        unpackVarLoop fuel' b n shift (acc + ((n &&& 7) <<< shift)) : Py (BitBucket × Int)) = .error .standard := by
  induction fuel with
  | zero =>
    intro v shift acc fuel' b pre x ha hp hl hv hf
    simp only [tailBits, natBits_length] at hl
    simp only [bind, Except.bind, at_4_short ha hl]
  | succ fuel ih =>
    intro v shift acc fuel' b pre x ha hp hl hv hf
    by_cases h7 : v > 7
    · rw [tailBits, if_pos h7] at hp hl
      have h16 : v &&& 7 < 8 := Nat.lt_of_le_of_lt Nat.and_le_right (by omega)
      have hlt : 8 ||| (v &&& 7) < 2 ^ 4 := by
        generalize v &&& 7 = w at h16
        interval_cases w <;> decide
      rcases prefix_append_cases hp with ⟨hl', _⟩ | ⟨y, rfl, hp'⟩
      · rw [natBits_length] at hl'
        simp only [bind, Except.bind, at_4_short ha hl']
      · obtain ⟨b1, e1, h1⟩ := at_4 hlt ha
        simp only [List.length_append, natBits_length] at hf hl
        obtain ⟨fuel'', rfl⟩ : ∃ k, fuel' = k + 1 := ⟨fuel' - 1, by omega⟩
        have hs : v >>> 3 ≤ fuel := by rw [Nat.shiftRight_eq_div_pow]; omega
        have e := ih (v >>> 3) (shift + 3) (acc + (((8 ||| (v &&& 7)) &&& 7) <<< shift)) fuel'' h1 hp' (by omega) hs
          (by omega)
        have hb : (8 ||| (v &&& 7)) &&& 8 ≠ 0 := by
          generalize v &&& 7 = w at h16
          interval_cases w <;> decide
        simp only [bind, Except.bind, e1] at e ⊢
        rw [unpackVarLoop, if_pos hb]
        exact e
    · rw [tailBits, if_neg h7, natBits_length] at hl
      simp only [bind, Except.bind, at_4_short ha hl]

theorem int_short {p : IntPack} {v : Int} : Short p.unpack (intE p v) := by
  intro b pre x ha hp hl _
  cases p with
  | int8 =>
    simp only [intE, natBits_length] at hl
    simp only [IntPack.unpack, unpackInt8, bind, Except.bind, at_8_short ha hl]
  | int16 =>
    simp only [intE, natBits_length] at hl
    simp only [IntPack.unpack, unpackInt16, bind, Except.bind, at_16_short ha hl]
  | varint =>
    simp only [intE] at hp hl
    unfold varBits at hp hl
    by_cases h15 : v.toNat < 15
    · rw [if_pos h15, natBits_length] at hl
      simp only [IntPack.unpack, unpackVarInt, bind, Except.bind, at_4_short ha hl]
    · rw [if_neg h15] at hp hl
      rcases prefix_append_cases hp with ⟨hl', _⟩ | ⟨y, rfl, hp'⟩
      · rw [natBits_length] at hl'
        simp only [IntPack.unpack, unpackVarInt, bind, Except.bind, at_4_short ha hl']
      · have hlen := at_len ha
        obtain ⟨b1, e1, h1⟩ := at_4 (by decide) ha
        simp only [List.length_append, natBits_length] at hl hlen
        have e := tail_short _ _ 0 15 (8 * b.output.length) h1 hp' (by omega) (Nat.le_refl _) (by omega)
        simp only [IntPack.unpack, unpackVarInt, bind, Except.bind, e1] at e ⊢
        exact e

/-! ### Operations -/

theorem field_short {p : Packing} {codes : List (List Bool)} (hk : StrOk p.huff codes) {op : Op} (hv : ValsOk p.ints op)
    (dst : Op) (f : Field) : Short (fun b => unpackField p b dst f) (fieldE p.ints codes op f) := by
  intro b pre x ha hp hl h8
  cases f with
  | index =>
    cases h : op.index with
    | none => simp [fieldE, h, Emit.nil] at hl
    | some v =>
      simp only [fieldE, h] at hp hl
      have e := int_short b pre x ha hp hl h8
      simp only [unpackField, bind, Except.bind, e]
  | indexStart =>
    cases h : op.indexStart with
    | none => simp [fieldE, h, Emit.nil] at hl
    | some v =>
      simp only [fieldE, h] at hp hl
      have e := int_short b pre x ha hp hl h8
      simp only [unpackField, bind, Except.bind, e]
  | key =>
    cases h : op.key with
    | none => simp [fieldE, h, Emit.nil] at hl
    | some v =>
      simp only [fieldE, h] at hp hl
      have e := str_short hk (hv.key v h) b pre x ha hp hl h8
      simp only [unpackField, bind, Except.bind, e]
  | val =>
    cases h : op.val with
    | none => simp [fieldE, h, Emit.nil] at hl
    | some v =>
      simp only [fieldE, h] at hp hl
      have e := str_short hk (hv.val v h) b pre x ha hp hl h8
      simp only [unpackField, bind, Except.bind, e]

theorem fields_short {p : Packing} {codes : List (List Bool)} (hk : StrOk p.huff codes) {op : Op} (hv : ValsOk p.ints op)
    (fields : List Field) (hf : ∀ f, op.has f = decide (f ∈ fields)) (fs : List Field) : ∀ dst : Op,
    Short (fun b => readFields p fields fs b dst) (fieldsE p.ints codes op fs) := by
  induction fs with
  | nil =>
    intro dst b pre x ha hp hl h8
    simp [fieldsE, Emit.nil] at hl
  | cons f fs ih =>
    intro dst b pre x ha hp hl h8
    by_cases hm : f ∈ fields
    · simp only [fieldsE, Emit.seq] at hp hl
      rcases prefix_append_cases hp with ⟨hl', hp'⟩ | ⟨y, rfl, hp'⟩
      · have e := field_short hk hv dst f b pre x ha hp' hl' h8
        simp only at e
        simp only [readFields, if_pos hm, bind, Except.bind, e]
      · obtain ⟨b1, e1, h1⟩ := field_reads hk hv dst f (by simp [hf, hm]) b pre _ ha
        rw [← List.length_append] at hp'
        simp only [List.length_append] at hl h8
        have e2 := ih (op.copy dst f) b1 _ y h1 hp' (by rw [List.length_append]; omega)
          (by rw [List.length_append]; omega)
        simp only at e1 e2
        simp only [readFields, if_pos hm, bind, Except.bind, e1, e2]
    · have ha' := fieldE_absent p.ints codes op f (by simp [hf, hm])
      simp only [fieldsE, Emit.seq, ha', Emit.nil, List.nil_append, List.length_nil, Nat.add_zero] at hp hl
      have e2 := ih dst b pre x ha hp hl h8
      simp only at e2
      simp only [readFields, if_neg hm, e2]

theorem op_short {p : Packing} {codes : List (List Bool)} (hk : StrOk p.huff codes) {op : Op} (h : OpOk p.ints op) :
    Short (fun b => readFields p op.opcode.fields packingOrder b { opcode := op.opcode }) (opE p.ints codes op) :=
  fields_short hk h.vals op.opcode.fields h.shaped.fields packingOrder { opcode := op.opcode }

theorem ops_short {p : Packing} {codes : List (List Bool)} (hk : StrOk p.huff codes) (opcode : Opcode) (ops : List Op)
    (h : ∀ op ∈ ops, OpOk p.ints op) (hoc : ∀ op ∈ ops, op.opcode = opcode) :
    ∀ (acc : List Op) {b : BitBucket} {pre x : List Bool}, At b pre x → x <+: opsE p.ints codes ops pre.length →
    x.length < (opsE p.ints codes ops pre.length).length → (pre.length + x.length) % 8 = 0 →
    ∃ j < ops.length, readOps p opcode ops.length b acc = (acc ++ ops.take j, none) ∧
      (opsE p.ints codes (ops.take j) pre.length).length ≤ x.length ∧
      x.length < (opsE p.ints codes (ops.take (j + 1)) pre.length).length := by
  induction ops with
  | nil =>
    intro acc b pre x _ _ hl _
    simp [opsE, Emit.nil] at hl
  | cons op ops ih =>
    intro acc b pre x ha hp hl h8
    have hoc' := hoc op (by simp)
    simp only [opsE, Emit.seq] at hp hl
    rcases prefix_append_cases hp with ⟨hl', hp'⟩ | ⟨y, rfl, hp'⟩
    · have e := op_short hk (h op (by simp)) b pre x ha hp' hl' h8
      simp only [hoc'] at e
      refine ⟨0, by simp, ?_, by simp [opsE, Emit.nil], ?_⟩
      · simp only [List.length_cons, readOps, e, List.take_zero, List.append_nil]
      · simp only [Nat.zero_add, List.take_succ_cons, List.take_zero, opsE, Emit.seq, Emit.nil, List.append_nil]
        exact hl'
    · obtain ⟨b1, e1, h1⟩ := op_reads hk (h op (by simp)) b pre _ ha
      simp only [hoc'] at e1
      rw [← List.length_append] at hp'
      simp only [List.length_append] at hl h8
      obtain ⟨j, hj, e, l1, l2⟩ := ih (fun o ho => h o (by simp [ho])) (fun o ho => hoc o (by simp [ho])) (acc ++ [op]) h1 hp'
        (by rw [List.length_append]; omega) (by rw [List.length_append]; omega)
      rw [List.length_append] at l1 l2
      refine ⟨j + 1, by simp only [List.length_cons]; omega, ?_, ?_, ?_⟩
      · simp only [List.length_cons, readOps, e1, e, List.take_succ_cons]
        simp
      · simp only [List.take_succ_cons, opsE, Emit.seq, List.length_append]
        omega
      · simp only [List.take_succ_cons, opsE, Emit.seq, List.length_append] at l2 ⊢
        omega

/-- The blocks of the first operations. -/
def takeBlocks : Nat → List (Opcode × List Op) → List (Opcode × List Op)
  | 0, _ => []
  | _ + 1, [] => []
  | m + 1, (oc, ops) :: bs => (oc, ops.take (m + 1)) :: takeBlocks (m + 1 - ops.length) bs

theorem takeBlocks_nil (m : Nat) : takeBlocks m [] = [] := by cases m <;> rfl

theorem takeBlocks_append (m : Nat) (xs ys : List (Opcode × List Op)) :
    takeBlocks m (xs ++ ys) = takeBlocks m xs ++ takeBlocks (m - (xs.flatMap (·.2)).length) ys := by
  induction xs generalizing m with
  | nil => simp [takeBlocks_nil]
  | cons x xs ih =>
    cases m with
    | zero => simp [takeBlocks]
    | succ m =>
      obtain ⟨oc, ops⟩ := x
      simp only [List.cons_append, takeBlocks, ih, List.flatMap_cons, List.length_append, Nat.sub_sub]

theorem chunks_fuel (f : Nat) : ∀ (f' : Nat) (ops : List Op), ops.length ≤ f → ops.length ≤ f' → chunks f ops = chunks f' ops := by
  induction f with
  | zero =>
    intro f' ops h _
    have := List.length_eq_zero_iff.1 (Nat.le_zero.1 h)
    subst this
    cases f' <;> simp [chunks]
  | succ f ih =>
    intro f' ops h h'
    cases f' with
    | zero =>
      have := List.length_eq_zero_iff.1 (Nat.le_zero.1 h')
      subst this
      simp [chunks]
    | succ f' =>
      rw [chunks, chunks]
      split
      · rw [ih f' (ops.drop 16) (by rw [List.length_drop]; omega) (by rw [List.length_drop]; omega)]
      · rfl

theorem takeBlocks_chunks (oc : Opcode) (f : Nat) : ∀ (m : Nat) (ops : List Op), ops.length ≤ f →
    takeBlocks m ((chunks f ops).map fun c => (oc, c)) =
      (chunks (ops.take m).length (ops.take m)).map fun c => (oc, c) := by
  induction f with
  | zero =>
    intro m ops h
    have := List.length_eq_zero_iff.1 (Nat.le_zero.1 h)
    subst this
    simp [chunks, takeBlocks_nil]
  | succ f ih =>
    intro m ops h
    cases m with
    | zero => simp [takeBlocks, chunks]
    | succ m =>
      by_cases hp : ops.length > 0
      · have hl : (ops.take (m + 1)).length > 0 := by rw [List.length_take]; omega
        obtain ⟨k, hk⟩ : ∃ k, (ops.take (m + 1)).length = k + 1 := ⟨(ops.take (m + 1)).length - 1, by omega⟩
        rw [chunks, if_pos hp, hk, chunks, if_pos hl, List.map_cons, List.map_cons, takeBlocks]
        have e1 : (ops.take 16).take (m + 1) = (ops.take (m + 1)).take 16 := by
          rw [List.take_take, List.take_take, Nat.min_comm]
        rw [e1]
        congr 1
        rw [ih _ _ (by rw [List.length_drop]; omega)]
        have e2 : (ops.drop 16).take (m + 1 - (ops.take 16).length) = (ops.take (m + 1)).drop 16 := by
          rw [List.drop_take, List.length_take]
          by_cases h16 : 16 ≤ ops.length
          · rw [Nat.min_eq_left h16]
          · rw [List.drop_of_length_le (by omega)]
            simp
        rw [e2]
        congr 1
        exact chunks_fuel _ _ _ le_rfl (by rw [List.length_drop]; omega)
      · have := List.length_eq_zero_iff.1 (by omega : ops.length = 0)
        subst this
        simp [chunks, takeBlocks_nil]

theorem takeBlocks_blocks (gs : Groups) : ∀ m : Nat, takeBlocks m (blocks gs) = blocks (takeOps m gs) := by
  induction gs with
  | nil => intro m; simp [blocks, takeOps, takeBlocks_nil]
  | cons g gs ih =>
    intro m
    obtain ⟨oc, ops⟩ := g
    have hf : (((chunks ops.length ops).map fun c => (oc, c)).flatMap (·.2)).length = ops.length := by
      rw [List.flatMap_map]
      conv_rhs => rw [← chunks_flat ops.length ops le_rfl]
      simp [List.flatMap_def]
    simp only [blocks, takeOps, List.flatMap_cons] at ih ⊢
    rw [takeBlocks_append, takeBlocks_chunks oc _ _ _ le_rfl, hf, ih]

theorem block_short {p : Packing} {codes : List (List Bool)} (hk : StrOk p.huff codes) {blk : Opcode × List Op}
    (h : BlockOk p.ints blk) (acc : List Op) {b : BitBucket} {pre x : List Bool} (ha : At b pre x)
    (hp : x <+: blockE p.ints codes blk pre.length) (hl : x.length < (blockE p.ints codes blk pre.length).length)
    (h8 : (pre.length + x.length) % 8 = 0) :
    ∃ j < blk.2.length, readBlock p b acc = (acc ++ blk.2.take j, none) ∧
      (j = 0 ∨ (blockE p.ints codes (blk.1, blk.2.take j) pre.length).length ≤ x.length) ∧
      x.length < (blockE p.ints codes (blk.1, blk.2.take (j + 1)) pre.length).length := by
  obtain ⟨oc, ops⟩ := blk
  have hpos := h.pos
  have hle := h.le
  have hv := val_lt oc
  simp only at hpos hle
  simp only [blockE, Emit.seq] at hp hl
  rcases prefix_append_cases hp with ⟨hl', _⟩ | ⟨y, rfl, hp'⟩
  · rw [natBits_length] at hl'
    refine ⟨0, hpos, ?_, .inl rfl, by simp only [blockE, Emit.seq, List.length_append, natBits_length]; omega⟩
    simp only [readBlock, at_8_short ha hl', List.take_zero, List.append_nil]
  · obtain ⟨b1, e1, h1⟩ := at_8 (by omega) ha
    rw [← List.length_append] at hp'
    simp only [List.length_append] at hl h8
    obtain ⟨j, hj, e2, hj1, hj2⟩ := ops_short hk oc ops h.ops h.code acc h1 hp' (by rw [List.length_append]; omega)
      (by rw [List.length_append]; omega)
    refine ⟨j, hj, ?_, .inr ?_, ?_⟩
    · have a1 : (16 * oc.val + (ops.length - 1)) >>> 4 = oc.val := by
        rw [Nat.shiftRight_eq_div_pow]; omega
      have a2 : ((16 * oc.val + (ops.length - 1)) &&& 0x0f) + 1 = ops.length := by
        have := Nat.and_two_pow_sub_one_eq_mod (16 * oc.val + (ops.length - 1)) 4
        simp only [show (2 : Nat) ^ 4 - 1 = 15 from rfl] at this
        rw [this]
        omega
      simp only [readBlock, e1, a1, opcodeOf_val, a2, e2]
    · simp only [blockE, Emit.seq, List.length_append, natBits_length] at hj1 ⊢
      omega
    · simp only [blockE, Emit.seq, List.length_append, natBits_length] at hj2 ⊢
      omega

theorem blocks_short {p : Packing} {codes : List (List Bool)} (hk : StrOk p.huff codes) (bs : List (Opcode × List Op))
    (h : ∀ blk ∈ bs, BlockOk p.ints blk) : ∀ (fuel : Nat) (lim : Int) (acc : List Op) {b : BitBucket} {pre x : List Bool},
    At b pre x → x <+: blocksE p.ints codes bs pre.length → x.length < (blocksE p.ints codes bs pre.length).length →
    (pre.length + x.length) % 8 = 0 → x.length < fuel →
    ((blocksE p.ints codes bs pre.length).length : Int) ≤ lim →
    ∃ j < (bs.flatMap (·.2)).length, readBlocks p fuel b lim acc = .ok (acc ++ (bs.flatMap (·.2)).take j, none) ∧
      (blocksE p.ints codes (takeBlocks j bs) pre.length).length ≤ x.length ∧
      x.length < (blocksE p.ints codes (takeBlocks (j + 1) bs) pre.length).length := by
  induction bs with
  | nil =>
    intro fuel lim acc b pre x _ _ hl
    simp [blocksE, Emit.nil] at hl
  | cons blk bs ih =>
    intro fuel lim acc b pre x ha hp hl h8 hfuel hlim
    have h9 := blockE_len hk (h blk (by simp)) pre.length
    simp only [blocksE, Emit.seq] at hp hl hlim
    simp only [List.length_append, Nat.cast_add] at hlim
    obtain ⟨fuel, rfl⟩ : ∃ k, fuel = k + 1 := ⟨fuel - 1, by omega⟩
    rcases prefix_append_cases hp with ⟨hl', hp'⟩ | ⟨y, rfl, hp'⟩
    · obtain ⟨j, hj, e, l1, l2⟩ := block_short hk (h blk (by simp)) acc ha hp' hl' h8
      obtain ⟨oc, ops⟩ := blk
      simp only at hj l1 l2
      refine ⟨j, by simp only [List.flatMap_cons, List.length_append]; omega, ?_, ?_, ?_⟩
      · unfold readBlocks
        rw [if_pos (by omega)]
        simp only [e, List.flatMap_cons]
        rw [List.take_append_of_le_length (by omega)]
      · cases j with
        | zero => simp [takeBlocks, blocksE, Emit.nil]
        | succ j =>
          rw [takeBlocks, Nat.sub_eq_zero_of_le (by omega), takeBlocks]
          simpa [blocksE, Emit.seq, Emit.nil] using l1
      · rw [takeBlocks, Nat.sub_eq_zero_of_le (by omega), takeBlocks]
        simpa [blocksE, Emit.seq, Emit.nil] using l2
    · obtain ⟨b1, e1, h1⟩ := block_read hk (h blk (by simp)) acc ha
      have r1 := at_remaining ha
      have r2 := at_remaining h1
      rw [← List.length_append] at hp'
      simp only [List.length_append] at hl h8 hfuel r1
      have e : blocksE p.ints codes bs (pre ++ blockE p.ints codes blk pre.length).length =
          blocksE p.ints codes bs (pre.length + (blockE p.ints codes blk pre.length).length) := by rw [List.length_append]
      have hl2 : lim - (bitsRemaining b - bitsRemaining b1) = lim - (blockE p.ints codes blk pre.length).length := by
        omega
      obtain ⟨j, hj, e2, l1, l2⟩ := ih (fun x hx => h x (by simp [hx])) fuel (lim - (bitsRemaining b - bitsRemaining b1))
        (acc ++ blk.2) h1 hp' (by rw [e]; omega) (by rw [List.length_append]; omega) (by omega) (by rw [e, hl2]; omega)
      have hb0 := (h blk (by simp)).pos
      obtain ⟨oc, ops⟩ := blk
      simp only at hb0
      rw [List.length_append] at l1 l2
      have key : ∀ k, takeBlocks (ops.length + k) ((oc, ops) :: bs) = (oc, ops) :: takeBlocks k bs := by
        intro k
        obtain ⟨m, hm⟩ : ∃ m, ops.length + k = m + 1 := ⟨ops.length + k - 1, by omega⟩
        rw [hm, takeBlocks, ← hm, Nat.add_sub_cancel_left, List.take_of_length_le (by omega)]
      refine ⟨ops.length + j, by simp only [List.flatMap_cons, List.length_append]; omega, ?_, ?_, ?_⟩
      · unfold readBlocks
        rw [if_pos (by omega)]
        simp only [e1, e2, List.flatMap_cons]
        rw [List.take_length_add_append, List.append_assoc]
      · rw [key]
        simp only [blocksE, Emit.seq, List.length_append]
        omega
      · rw [Nat.add_assoc, key]
        simp only [blocksE, Emit.seq, List.length_append]
        omega

/-! ### Frames -/

theorem frameLoop_one (streamId groupId allowed fuel : Nat) (h3 : streamId < 2 ^ 31) (h4 : groupId < 2 ^ 8)
    (ha' : allowed < 2 ^ 16) (payload : List Nat) (hp : ∀ x ∈ payload, x < 256) (hle : payload.length ≤ allowed) :
    ∃ b', frameLoop streamId groupId allowed (fuel + 1) BitBucket.empty payload payload.length = .ok b' ∧
      Wrote b' (headE payload.length 1 streamId groupId 8 ++ bitsOf payload) := by
  obtain ⟨b1, e1, w1⟩ := boilerplate_spec wrote_empty (len := payload.length) (flags := 1) (frameType := 8)
    (by omega) (by omega) h3 h4 (by omega)
  obtain ⟨b2, e2, w2⟩ := wrote_bytes w1 payload hp
  have e2' : storeBits b1 payload (payload.length * 8) = .ok b2 := by rw [Nat.mul_comm]; exact e2
  refine ⟨b2, ?_, by simpa using w2⟩
  simp only [frameLoop, Nat.min_eq_left hle, if_pos (Nat.le_refl _), bind, Except.bind, e1, e2', if_pos hle]

theorem bitsOf_take (l : List Nat) (n : Nat) : bitsOf (l.take n) = (bitsOf l).take (8 * n) := by
  induction l generalizing n with
  | nil => simp
  | cons a l ih =>
    cases n with
    | zero => simp
    | succ n =>
      have hb : (byteBits a).length = 8 := by simp [byteBits]
      rw [List.take_succ_cons, bitsOf_cons, bitsOf_cons, ih, List.take_append, hb,
        List.take_of_length_le (l := byteBits a) (by omega)]
      congr 2

/-- The bytes of operations that fit into a frame. -/
theorem wire_one {p : Packing} {codes : List (List Bool)} (hk : StrOk p.huff codes) (gs : Groups) (h : GroupsOk p.ints gs)
    (gid : Nat) (hg : gid < 256) (hfit : (blocksE p.ints codes (blocks gs) 0).length ≤ 8 * 65527) :
    ∃ bytes, opsToRealOps p gs gid = .ok bytes ∧ (∀ x ∈ bytes, x < 256) ∧
      bitsOf bytes = headE (((blocksE p.ints codes (blocks gs) 0).length + 7) / 8) 1 0xffff gid 8 ++
        (blocksE p.ints codes (blocks gs) 0 ++ padZeros (blocksE p.ints codes (blocks gs) 0).length) := by
  obtain ⟨b1, e1, w1⟩ := outputAll_writes hk gs h BitBucket.empty ⟨[], 0⟩ holds_empty
  generalize hP : blocksE p.ints codes (blocks gs) 0 = P at w1 hfit ⊢
  have w1' : Wrote b1 P := by
    simp only [Tape.write, List.nil_append] at w1
    exact w1
  obtain ⟨o1, n1⟩ := wrote_out w1'
  obtain ⟨b2, e2, w2⟩ := boilerplate_spec wrote_empty (len := 0) (flags := 0) (streamId := 0) (groupId := gid)
    (frameType := 0) (by omega) (by omega) (by omega) (by omega) (by omega)
  have n2 : bytesOfStorage b2 = 9 := by
    have := (wrote_out w2).2
    simp only [List.nil_append, headE_len] at this
    rw [bytesOfStorage, this]
    rfl
  have hlen : ((numBits b1 + 7) / 8).toNat = (pack P).length := by
    rw [n1, pack_length]
    omega
  obtain ⟨b3, e3, w3⟩ := frameLoop_one 0xffff gid 65527 (pack P).length (by omega) (by omega) (by omega)
    (pack P) (pack_lt P) (by rw [pack_length]; omega)
  rw [pack_length, bits_pack] at w3
  generalize hA : headE ((P.length + 7) / 8) 1 0xffff gid 8 ++ (P ++ padZeros P.length) = A at w3 ⊢
  have hA8 : A.length % 8 = 0 := by
    rw [← hA]
    simp only [List.length_append, headE_len, padZeros, List.length_replicate]
    omega
  obtain ⟨o3, n3⟩ := wrote_out w3
  obtain ⟨b4, e4, w4⟩ := wrote_store wrote_empty A
  obtain ⟨o4, n4⟩ := wrote_out w4
  rw [List.nil_append] at o4 n4 w4
  refine ⟨pack A, ?_, pack_lt A, pack_bits A hA8⟩
  have : serialize p gs 0xffff gid = .ok (pack A, (A.length : Int)) := by
    simp only [serialize, bind, Except.bind, e1, e2, n2, hlen, o1, pure, Except.pure]
    simp only [show (2 : Nat) ^ 16 - (9 : Int).toNat = 65527 from rfl, e3, o3, n3]
  simp only [opsToRealOps, bind, Except.bind, this, Int.toNat_natCast, e4, pure, Except.pure, o4]

theorem deserialize_bits (p : Packing) (bytes : List Nat) (hb : ∀ x ∈ bytes, x < 256) :
    ∃ b, Wrote b (bitsOf bytes) ∧ realOpsToOps p bytes = readFrames p (b.output.length + 1) b [] := by
  obtain ⟨b1, e1, w1⟩ := wrote_bytes wrote_empty bytes hb
  rw [List.nil_append] at w1
  obtain ⟨o1, n1⟩ := wrote_out w1
  obtain ⟨b2, e2, w2⟩ := wrote_store wrote_empty (bitsOf bytes)
  rw [List.nil_append] at w2
  refine ⟨b2, w2, ?_⟩
  have h5 : storeBits BitBucket.empty b1.output (numBits b1).toNat = .ok b2 := by
    rw [o1, n1, Int.toNat_natCast]
    exact e2
  rw [Nat.mul_comm] at e1
  simp only [realOpsToOps, deserialize, bind, Except.bind, e1, h5]

/-- A frame that has been cut off. -/
theorem wire_cut {p : Packing} {codes : List (List Bool)} (hk : StrOk p.huff codes) (gs : Groups) (h : GroupsOk p.ints gs)
    (gid : Nat) (hg : gid < 256) (hfit : (blocksE p.ints codes (blocks gs) 0).length ≤ 8 * 65527) (bytes : List Nat)
    (hbytes : opsToRealOps p gs gid = .ok bytes) (n : Nat) (hn : n < bytes.length) :
    (n < 9 → realOpsToOps p (bytes.take n) = .error .standard) ∧
    (9 ≤ n → ∃ j < (gs.flatMap (·.2)).length, realOpsToOps p (bytes.take n) = .ok (gid, (gs.flatMap (·.2)).take j) ∧
      (blocksE p.ints codes (blocks (takeOps j gs)) 0).length ≤ 8 * (n - 9) ∧
      8 * (n - 9) < (blocksE p.ints codes (blocks (takeOps (j + 1) gs)) 0).length) := by
  obtain ⟨bytes', e, hlt, hbits⟩ := wire_one hk gs h gid hg hfit
  rw [hbytes] at e
  cases e
  have hok := blocks_ok h
  have hflat := blocks_flat gs
  have hblen : 8 * bytes.length = (bitsOf bytes).length := by rw [bitsOf_length]
  obtain ⟨b, w, er⟩ := deserialize_bits p (bytes.take n) (fun x hx => hlt x (List.mem_of_mem_take hx))
  have hst := w.start
  have hxl : (bitsOf (bytes.take n)).length = 8 * n := by rw [bitsOf_length, List.length_take]; omega
  have hxp : bitsOf (bytes.take n) <+: bitsOf bytes := by rw [bitsOf_take]; exact List.take_prefix _ _
  rw [hbits] at hxp
  rw [er]
  generalize hx : bitsOf (bytes.take n) = x at hst hxl hxp
  have hPE : blocksE p.ints codes (blocks gs) 72 = blocksE p.ints codes (blocks gs) 0 :=
    blocksE_aligned p.ints codes _ _ _ (by omega)
  generalize hP : blocksE p.ints codes (blocks gs) 0 = P at *
  have hpad : (padZeros P.length).length = (8 - P.length % 8) % 8 := by simp [padZeros]
  rw [hbits] at hblen
  simp only [List.length_append, headE_len, hpad] at hblen
  simp only [headE, List.append_assoc] at hxp
  constructor
  · intro h9
    rcases prefix_append_cases hxp with ⟨hl, _⟩ | ⟨x1, rfl, hxp1⟩
    · rw [natBits_length] at hl
      simp only [readFrames, bind, Except.bind, at_16_short hst hl]
    obtain ⟨c1, f1, a1⟩ := at_16 (by omega) hst
    rcases prefix_append_cases hxp1 with ⟨hl, _⟩ | ⟨x2, rfl, hxp2⟩
    · rw [natBits_length] at hl
      simp only [readFrames, bind, Except.bind, f1, at_8_short a1 hl]
    obtain ⟨c2, f2, a2⟩ := at_8 (by omega) a1
    rcases prefix_append_cases hxp2 with ⟨hl, _⟩ | ⟨x3, rfl, hxp3⟩
    · rw [natBits_length] at hl
      simp only [readFrames, bind, Except.bind, f1, f2, at_8_short a2 hl]
    obtain ⟨c3, f3, a3⟩ := at_8 (by omega) a2
    rcases prefix_append_cases hxp3 with ⟨hl, _⟩ | ⟨x4, rfl, hxp4⟩
    · rw [natBits_length] at hl
      simp only [readFrames, bind, Except.bind, f1, f2, f3, at_32_short a3 hl]
    obtain ⟨c4, f4, a4⟩ := at_32 (by decide) a3
    simp only [List.length_append, natBits_length] at hxl
    have e5 := at_8_short a4 (by omega)
    simp only [readFrames, bind, Except.bind, f1, f2, f3, f4, e5]
  · intro h9
    rcases prefix_append_cases hxp with ⟨hl, _⟩ | ⟨x1, rfl, hxp1⟩
    · rw [natBits_length] at hl; omega
    obtain ⟨c1, f1, a1⟩ := at_16 (by omega) hst
    simp only [List.length_append, natBits_length] at hxl
    rcases prefix_append_cases hxp1 with ⟨hl, _⟩ | ⟨x2, rfl, hxp2⟩
    · rw [natBits_length] at hl; omega
    obtain ⟨c2, f2, a2⟩ := at_8 (by omega) a1
    simp only [List.length_append, natBits_length] at hxl
    rcases prefix_append_cases hxp2 with ⟨hl, _⟩ | ⟨x3, rfl, hxp3⟩
    · rw [natBits_length] at hl; omega
    obtain ⟨c3, f3, a3⟩ := at_8 (by omega) a2
    simp only [List.length_append, natBits_length] at hxl
    rcases prefix_append_cases hxp3 with ⟨hl, _⟩ | ⟨x4, rfl, hxp4⟩
    · rw [natBits_length] at hl; omega
    obtain ⟨c4, f4, a4⟩ := at_32 (by decide) a3
    simp only [List.length_append, natBits_length] at hxl
    rcases prefix_append_cases hxp4 with ⟨hl, _⟩ | ⟨x5, rfl, hxp5⟩
    · rw [natBits_length] at hl; omega
    obtain ⟨c5, f5, a5⟩ := at_8 (by omega) a4
    simp only [List.length_append, natBits_length] at hxl
    have hlt5 : x5.length < P.length := by omega
    have hp5 : x5 <+: P := List.prefix_of_prefix_length_le hxp5 (List.prefix_append _ _) (Nat.le_of_lt hlt5)
    have hlen5 := at_len a5
    generalize hpre : ([] ++ natBits 16 ((P.length + 7) / 8) ++ natBits 8 8 ++ natBits 8 1 ++
      natBits 32 (2147483648 ||| 65535) ++ natBits 8 gid) = pre at a5
    have hpl : pre.length = 72 := by rw [← hpre]; simp
    have hl72 : (72 + x5.length) % 8 = 0 := by omega
    obtain ⟨j, hj, e, l1, l2⟩ := blocks_short hk (blocks gs) hok (8 * c5.output.length) (((P.length + 7) / 8 * 8 : Nat) : Int) []
      (b := c5) (pre := pre) a5 (by rw [hpl, hPE]; exact hp5) (by rw [hpl, hPE]; exact hlt5) (by rw [hpl]; exact hl72)
      (by
        have := a5.bits.length
        simp only [List.length_append, hpl] at this
        omega) (by rw [hpl, hPE]; omega)
    rw [hflat] at hj e
    rw [takeBlocks_blocks, hpl, blocksE_aligned p.ints codes _ 72 0 (by omega)] at l1 l2
    refine ⟨j, hj, ?_, by omega, by omega⟩
    simp only [readFrames, bind, Except.bind, f1, f2, f3, f4, f5, e, List.nil_append, pure, Except.pure]
    simp

theorem takeOps_ok {p : IntPack} {gs : Groups} (h : GroupsOk p gs) : ∀ m : Nat, GroupsOk p (takeOps m gs) := by
  induction gs with
  | nil => intro m; simpa [takeOps] using h
  | cons g gs ih =>
    intro m g' hg' op hop
    obtain ⟨oc, ops⟩ := g
    simp only [takeOps, List.mem_cons] at hg'
    rcases hg' with rfl | hg'
    · exact h (oc, ops) (by simp) op (List.mem_of_mem_take hop)
    · exact ih (fun x hx => h x (by simp [hx])) _ g' hg' op hop

/-- A frame that has been cut off, compared with the frames of the first operations. -/
theorem wire_cut_exact {p : Packing} {codes : List (List Bool)} (hk : StrOk p.huff codes) (gs : Groups)
    (h : GroupsOk p.ints gs) (gid : Nat) (hg : gid < 256)
    (hfit : (blocksE p.ints codes (blocks gs) 0).length ≤ 8 * 65527) (bytes : List Nat)
    (hbytes : opsToRealOps p gs gid = .ok bytes) (n : Nat) (hn : n < bytes.length) (h9 : 9 ≤ n) :
    ∃ (j : Nat) (f f' : List Nat), j < (gs.flatMap (·.2)).length ∧
      realOpsToOps p (bytes.take n) = .ok (gid, (gs.flatMap (·.2)).take j) ∧
      opsToRealOps p (takeOps j gs) gid = .ok f ∧ opsToRealOps p (takeOps (j + 1) gs) gid = .ok f' ∧
      f.length ≤ n ∧ n < f'.length := by
  obtain ⟨j, hj, e, l1, l2⟩ := (wire_cut hk gs h gid hg hfit bytes hbytes n hn).2 h9
  obtain ⟨b0, e0, _, hb0⟩ := wire_one hk gs h gid hg hfit
  rw [hbytes] at e0
  cases e0
  have hlen := congrArg List.length hb0
  simp only [bitsOf_length, List.length_append, headE_len, padZeros, List.length_replicate] at hlen
  obtain ⟨f, e1, _, hb1⟩ := wire_one hk (takeOps j gs) (takeOps_ok h j) gid hg (by omega)
  obtain ⟨f', e2, _, hb2, _⟩ := wire_spec hk (takeOps (j + 1) gs) (takeOps_ok h (j + 1)) gid hg
  have hlen1 := congrArg List.length hb1
  simp only [bitsOf_length, List.length_append, headE_len, padZeros, List.length_replicate] at hlen1
  exact ⟨j, f, f', hj, e, e1, e2, by omega, by omega⟩

end Verif.Delta2
