import Verif.Bits.Show
import Verif.Bits.Run
import Verif.Props.CppUtils
import Verif.Props.Bits
/-
Properties C117, C118 and C119: how the Python code shows bits and strings, and its test of the bit bucket.
-/
namespace Verif.Props
open Verif Verif.Bits Bits.Spec
open Verif.Stats (dec)

/-! ### FormatAsBits -/

set_option maxRecDepth 100000 in
theorem bin08_eq (c : Nat) (h : c < 256) : bin08 c = digits114 (byteBits c) := by
  have : ∀ c < 256, bin08 c = digits114 (byteBits c) := by decide +kernel
  exact this c h

theorem barred114_byte (n : Nat) (cs : Str) (hn : n % 8 = 0) (h0 : cs ≠ []) (h8 : cs.length ≤ 8) :
    barred114 n cs = 124 :: cs := by
  have aux : ∀ (cs : Str) (n : Nat), n % 8 ≠ 0 → n % 8 + cs.length ≤ 8 → barred114 n cs = cs := by
    intro cs
    induction cs with
    | nil => intro n _ _; rfl
    | cons c cs ih =>
      intro n h1 h2
      rw [barred114_cons, if_neg h1]
      simp only [List.length_cons] at h2
      by_cases he : cs = []
      · subst he; rfl
      · have := List.length_pos_iff.mpr he
        rw [ih (n + 1) (by omega) (by omega)]
        rfl
  obtain ⟨c, cs, rfl⟩ := List.exists_cons_of_ne_nil h0
  rw [barred114_cons, if_pos hn]
  simp only [List.length_cons] at h8
  by_cases he : cs = []
  · subst he; rfl
  · have := List.length_pos_iff.mpr he
    rw [aux cs (n + 1) (by omega) (by omega)]
    rfl

theorem wholeBytes_ok (out : List Nat) (hb : ∀ c ∈ out, c < 256) : ∀ (k idx : Nat), idx + k ≤ out.length →
    wholeBytes out k idx = .ok (barred114 (8 * idx) (digits114 (bitsOf ((out.drop idx).take k))))
  | 0, idx, _ => by simp [wholeBytes, bitsOf, digits114, barred114]
  | k + 1, idx, h => by
    have hi : idx < out.length := by omega
    have ih := wholeBytes_ok out hb k (idx + 1) (by omega)
    have hc := hb out[idx] (List.getElem_mem hi)
    rw [List.drop_eq_getElem_cons hi, List.take_succ_cons]
    simp only [wholeBytes, at?, List.getElem?_eq_getElem hi, bind, Except.bind, ih, pure, Except.pure]
    rw [bin08_eq _ hc, show bitsOf (out[idx] :: (out.drop (idx + 1)).take k) =
      byteBits out[idx] ++ bitsOf ((out.drop (idx + 1)).take k) by simp [bitsOf],
      show digits114 (byteBits out[idx] ++ bitsOf ((out.drop (idx + 1)).take k)) =
        digits114 (byteBits out[idx]) ++ digits114 (bitsOf ((out.drop (idx + 1)).take k)) by simp [digits114],
      barred114_append, barred114_byte (8 * idx) _ (by omega) (by simp [digits114, byteBits, natBits])
        (by simp [digits114, byteBits, natBits])]
    rw [show (digits114 (byteBits out[idx])).length = 8 by simp [digits114, byteBits, natBits],
      show 8 * idx + 8 = 8 * (idx + 1) by omega]
    rfl

/-- How many bits FormatAsBits shows of so many bytes when it is given the number `n`. -/
def shown117 (bytes n : Nat) : Nat := if n % 8 = 0 then 8 * bytes else 8 * (bytes - 1) + n % 8

/-- C117: FormatAsBits shows the bits of all bytes, of the last one only as many as the number says (which counts only modulo
8), in groups of eight, and then the number; it raises if and only if it needs a last byte and there is none. -/
theorem C117_format (out : List Nat) (hb : ∀ c ∈ out, c < 256) (n : Nat) :
    formatAsBits out n =
      if out = [] ∧ n % 8 ≠ 0 then .error .index
      else .ok (barred114 0 (digits114 ((bitsOf out).take (shown117 out.length n))) ++ b!" [" ++ dec n ++ b!"]") := by
  have hlen : (bitsOf out).length = 8 * out.length := by simp
  by_cases hn : n % 8 = 0
  · rw [if_neg (by simp [hn]), shown117, if_pos hn, List.take_of_length_le (by omega)]
    have hk : (totalBits out n / 8).toNat = out.length := by
      unfold totalBits
      split
      · omega
      · rw [if_neg (by simp [hn])]; omega
    have := wholeBytes_ok out hb out.length 0 (by omega)
    simp only [formatAsBits, hk, this, bind, Except.bind, hn, ne_eq, not_true_eq_false, if_false, pure, Except.pure]
    simp
  · have hk : (totalBits out n / 8).toNat = out.length - 1 := by
      rw [totalBits, if_neg (by rintro rfl; exact hn rfl), if_pos hn]
      omega
    have hw := wholeBytes_ok out hb (out.length - 1) 0 (by omega)
    by_cases ho : out = []
    · subst ho
      rw [if_pos ⟨rfl, hn⟩]
      simp only [formatAsBits, hk, hw, bind, Except.bind, ne_eq, hn, not_false_eq_true, if_true, at?]
      rfl
    · rw [if_neg (fun h => ho h.1), shown117, if_neg hn]
      have hpos := List.length_pos_iff.mpr ho
      have hlast : out[out.length - 1]? = some out[out.length - 1] := List.getElem?_eq_getElem (by omega)
      simp only [formatAsBits, hk, hw, bind, Except.bind, ne_eq, hn, not_false_eq_true, if_true, at?, hlast, pure, Except.pure]
      rw [bin08_eq _ (hb _ (List.getElem_mem (by omega)))]
      have hout : out = out.take (out.length - 1) ++ [out[out.length - 1]] := by
        conv_lhs => rw [← List.take_append_drop (out.length - 1) out, List.drop_eq_getElem_cons (by omega),
          List.drop_of_length_le (by omega : out.length ≤ out.length - 1 + 1)]
      have hsplit : bitsOf out = bitsOf (out.take (out.length - 1)) ++ byteBits out[out.length - 1] := by
        conv_lhs => rw [hout]
        simp only [bitsOf, List.flatMap_append, List.flatMap_cons, List.flatMap_nil, List.append_nil]
      have hl1 : (bitsOf (out.take (out.length - 1))).length = 8 * (out.length - 1) := by simp
      have htake : (bitsOf out).take (8 * (out.length - 1) + n % 8) =
          bitsOf (out.take (out.length - 1)) ++ (byteBits out[out.length - 1]).take (n % 8) := by
        rw [hsplit, ← hl1, List.take_length_add_append]
      rw [htake, show ∀ a b, digits114 (a ++ b) = digits114 a ++ digits114 b from fun a b => by simp [digits114],
        barred114_append, barred114_byte _ (digits114 ((byteBits out[out.length - 1]).take (n % 8)))]
      · simp only [List.drop_zero, Nat.mul_zero]
        simp [digits114, List.map_take]
      · simp only [digits114, List.length_map, hl1]; omega
      · simp only [digits114, ne_eq, List.map_eq_nil_iff, List.take_eq_nil_iff, not_or]
        exact ⟨hn, by simp [byteBits, natBits]⟩
      · simp only [digits114, List.length_map, List.length_take]; omega

example : formatAsBits [0xff, 0x0f] 13 = .ok b!"|11111111|00001 [13]" := by decide +kernel
example : formatAsBits [] 3 = .error .index := by decide +kernel
example : formatAsBits [0xff, 0x0f, 1] 5 = .ok b!"|11111111|00001111|00000 [5]" := by decide +kernel

/-- How a bucket with these bits is shown. -/
def text117 (bits : List Bool) : Str := barred114 0 (digits114 bits) ++ b!" [" ++ dec (bits.length % 8) ++ b!"]"

theorem take_shown {b : BitBucket} {bits : List Bool} (h : Rep b bits) (n : Nat) (hn : n % 8 = bits.length % 8) :
    (bitsOf b.output).take (shown117 b.output.length n) = bits ∧ ¬ (b.output = [] ∧ n % 8 ≠ 0) := by
  have hl := h.length
  have hs : shown117 b.output.length n = bits.length := by
    unfold shown117
    split <;> omega
  refine ⟨by rw [hs, h.content, List.take_left], ?_⟩
  rintro ⟨h1, h2⟩
  rw [h1] at hl
  simp only [List.length_nil] at hl
  omega

theorem repr_eq {b : BitBucket} {bits : List Bool} (h : Rep b bits) : Bits.repr b = .ok (text117 bits) := by
  have hb := h.boff
  obtain ⟨h1, h2⟩ := take_shown h b.outBoff (by omega)
  rw [Bits.repr, C117_format _ h.bytes, if_neg h2, h1, hb]
  rfl

/-- C117: whatever was stored and read, the bucket is shown as exactly the bits stored, in groups of eight, with the number of
bits in the last byte; the pair that GetAllBits returns is shown with the number of all bits. -/
theorem C117_bucket (ops : List Op) (hops : ∀ op ∈ ops, op.Ok) :
    Bits.repr (calls BitBucket.empty ops).1 = .ok (text117 (run ⟨[], 0⟩ ops).1.bits) ∧
    formatAsBits (calls BitBucket.empty ops).1.output (numBits (calls BitBucket.empty ops).1).toNat =
      .ok (barred114 0 (digits114 (run ⟨[], 0⟩ ops).1.bits) ++ b!" [" ++ dec (run ⟨[], 0⟩ ops).1.bits.length ++ b!"]") := by
  have h := (calls_sim ops hops holds_empty).2.rep
  refine ⟨repr_eq h, ?_⟩
  have hn := h.numBits
  rw [hn, Int.toNat_natCast]
  obtain ⟨h1, h2⟩ := take_shown h _ rfl
  rw [C117_format _ h.bytes, if_neg h2, h1]

example : text117 [true, true, true, true, true, true, true, true, false, false, true] = b!"|11111111|001 [3]" := by
  decide +kernel

/-! ### Strings -/

set_option maxRecDepth 100000 in
theorem makeReadable_chars : ∀ c < 256, ∀ d < 256, makeReadable [c] = makeReadable [d] → c = d := by
  have h1 : ((List.range 256).map fun c => makeReadable [c]).Nodup := by decide +kernel
  intro c hc d hd h
  exact List.inj_on_of_nodup_map h1 (List.mem_range.mpr hc) (List.mem_range.mpr hd) h

theorem makeReadable_cons (c : Nat) (s : Str) : makeReadable (c :: s) = makeReadable [c] ++ makeReadable s := by
  simp [makeReadable]

theorem makeReadable_one (c : Nat) : (makeReadable [c]).length = 5 := by
  simp only [makeReadable, List.flatMap_cons, List.flatMap_nil, List.append_nil]
  split <;> rfl

/-- C117: MakeReadableString shows five characters for each byte, and different strings differently. -/
theorem C117_readable : ∀ (s t : Str), (∀ c ∈ s, c < 256) → (∀ c ∈ t, c < 256) →
    (makeReadable s).length = 5 * s.length ∧ (makeReadable s = makeReadable t → s = t)
  | [], [], _, _ => ⟨rfl, fun _ => rfl⟩
  | [], d :: t, _, _ => ⟨rfl, fun h => by
      have := congrArg List.length h
      rw [makeReadable_cons, List.length_append, makeReadable_one] at this
      simp [makeReadable] at this
      omega⟩
  | c :: s, [], hs, ht => by
    obtain ⟨h1, -⟩ := C117_readable s [] (fun x hx => hs x (by simp [hx])) ht
    refine ⟨by rw [makeReadable_cons, List.length_append, makeReadable_one, h1, List.length_cons]; omega, fun h => ?_⟩
    have := congrArg List.length h
    rw [makeReadable_cons, List.length_append, makeReadable_one] at this
    simp [makeReadable] at this
  | c :: s, d :: t, hs, ht => by
    obtain ⟨h1, h2⟩ := C117_readable s t (fun x hx => hs x (by simp [hx])) (fun x hx => ht x (by simp [hx]))
    refine ⟨by rw [makeReadable_cons, List.length_append, makeReadable_one, h1, List.length_cons]; omega, fun h => ?_⟩
    rw [makeReadable_cons c, makeReadable_cons d] at h
    obtain ⟨e1, e2⟩ := List.append_inj h (by rw [makeReadable_one, makeReadable_one])
    rw [makeReadable_chars c (hs c (by simp)) d (ht d (by simp)) e1, h2 e2]

example : makeReadable [104, 0, 9] = b!"   h 0x00    \t " := by decide +kernel

/-! ### C118: DebugFormat -/

theorem dashes_eq : ∀ (n i : Nat), dashes i n = barred114 i (List.replicate n 45)
  | 0, _ => rfl
  | n + 1, i => by rw [dashes, dashes_eq n (i + 1), List.replicate_succ, barred114_cons]

/-- C118: below the text of the bucket, DebugFormat puts dashes and a mark into the columns of the bits read, the mark under the
last of them, if and only if there is such a bit and it is not the first one of a byte; then the mark is under the bar. -/
theorem C118_partial (ops : List Op) (hops : ∀ op ∈ ops, op.Ok) :
    ∃ marks, debugFormat (calls BitBucket.empty ops).1 = .ok (text117 (run ⟨[], 0⟩ ops).1.bits, marks) ∧
      (marks = barred114 0 (List.replicate ((run ⟨[], 0⟩ ops).1.pos - 1) 45 ++ [94]) ↔ (run ⟨[], 0⟩ ops).1.pos % 8 ≠ 1 ∧
        (run ⟨[], 0⟩ ops).1.pos ≠ 0) := by
  have h := (calls_sim ops hops holds_empty).2
  have hp : (calls BitBucket.empty ops).1.idxByte * 8 + (calls BitBucket.empty ops).1.idxBoff = (run ⟨[], 0⟩ ops).1.pos := by
    have := h.pos
    omega
  generalize (run ⟨[], 0⟩ ops).1 = t at *
  refine ⟨barred114 0 (List.replicate (t.pos - 1) 45) ++ b!"^", ?_, ?_⟩
  · simp only [debugFormat, repr_eq h.rep, bind, Except.bind, hp, dashes_eq]
    rfl
  · rw [barred114_append, List.append_cancel_left_eq, barred114_cons, barred114_nil, List.append_nil, List.length_replicate]
    by_cases hz : (0 + (t.pos - 1)) % 8 = 0
    · rw [if_pos hz]
      exact ⟨fun hc => absurd hc (by decide), fun hc => by omega⟩
    · rw [if_neg hz]
      exact ⟨fun _ => by omega, fun _ => rfl⟩

/-- C118 is false: after one bit was read, the mark is under the bar in front of it. -/
theorem C118_false : ∃ ops : List Op, (∀ op ∈ ops, op.Ok) ∧ (run ⟨[], 0⟩ ops).1.pos = 1 ∧
    debugFormat (calls BitBucket.empty ops).1 = .ok (b!"|10100101 [0]", b!"^") :=
  ⟨[.store8 0xa5, .getBit], by simp [Op.Ok], rfl, by decide +kernel⟩

/-! ### C119: the test of the bit bucket -/

/-- The bits that a test stores. -/
def stored119 (t : (List Nat × Nat) × Str) : List Bool := (bitsOf t.1.1).take t.1.2

/-- All texts expected are those of the bits stored so far. -/
def Right119 : List Bool → List ((List Nat × Nat) × Str) → Prop
  | _, [] => True
  | bits, t :: ts => t.2 = text117 (bits ++ stored119 t) ∧ Right119 (bits ++ stored119 t) ts

instance decRight119 : ∀ (bits : List Bool) (ts : List ((List Nat × Nat) × Str)), Decidable (Right119 bits ts)
  | _, [] => isTrue trivial
  | bits, t :: ts => @instDecidableAnd _ _ _ (decRight119 (bits ++ stored119 t) ts)

theorem testLoop119 (wrong : PyErr) : ∀ (ts : List ((List Nat × Nat) × Str)) (b : BitBucket) (t : Tape), Holds b t →
    (∀ x ∈ ts, (Op.store x.1.1 x.1.2).Ok) →
    (Right119 t.bits ts → ∃ b', Bits.testLoop wrong b ts = .ok b' ∧ Holds b' (t.write (ts.flatMap stored119))) ∧
    (¬ Right119 t.bits ts → Bits.testLoop wrong b ts = .error wrong)
  | [], b, t, h, _ => by
    refine ⟨fun _ => ⟨b, rfl, ?_⟩, fun hn => absurd trivial hn⟩
    simpa [Tape.write] using h
  | ((bytes, n), e) :: ts, b, t, h, hl => by
    have h0 := hl _ List.mem_cons_self
    obtain ⟨b1, e1, h1⟩ := holds_store h bytes n h0.1 h0.2
    have e2 := repr_eq h1.rep
    obtain ⟨i1, i2⟩ := testLoop119 wrong ts b1 _ h1 (fun x hx => hl x (List.mem_cons_of_mem _ hx))
    have hw : (t.write ((bitsOf bytes).take n)).bits = t.bits ++ stored119 ((bytes, n), e) := rfl
    rw [hw] at i1 i2 e2
    by_cases he : text117 (t.bits ++ stored119 ((bytes, n), e)) = e
    · have hloop : Bits.testLoop wrong b (((bytes, n), e) :: ts) = Bits.testLoop wrong b1 ts := by
        simp only [Bits.testLoop, e1, e2, bind, Except.bind]
        rw [if_neg (by simpa using he)]
      rw [hloop]
      refine ⟨fun hr => ?_, fun hr => i2 (fun hc => hr ⟨he.symm, hc⟩)⟩
      obtain ⟨b', e3, h3⟩ := i1 hr.2
      refine ⟨b', e3, ?_⟩
      simpa [Tape.write, stored119] using h3
    · refine ⟨fun hr => absurd hr.1.symm he, fun _ => ?_⟩
      simp only [Bits.testLoop, e1, e2, bind, Except.bind]
      rw [if_pos (by simpa using he)]
      rfl

/-- C119: RunTestCase, for every list of tests that give as many bytes as their bits need, on a bucket with any history: it
raises if and only if a text that it expects is not that of the bits stored so far; otherwise exactly the bits of the tests are
stored. -/
theorem C119_run (wrong : PyErr) (ops : List Op) (hops : ∀ op ∈ ops, op.Ok) (ts : List ((List Nat × Nat) × Str))
    (hl : ∀ x ∈ ts, (Op.store x.1.1 x.1.2).Ok) :
    if Right119 (run ⟨[], 0⟩ ops).1.bits ts then
      ∃ b, runTestCase wrong (calls BitBucket.empty ops).1 ts = .ok b ∧
        contents b = (run ⟨[], 0⟩ ops).1.bits ++ ts.flatMap stored119
    else runTestCase wrong (calls BitBucket.empty ops).1 ts = .error wrong := by
  have h := (calls_sim ops hops holds_empty).2
  obtain ⟨h1, h2⟩ := testLoop119 wrong ts _ _ h hl
  have hrun : runTestCase wrong (calls BitBucket.empty ops).1 ts = Bits.testLoop wrong (calls BitBucket.empty ops).1 ts := by
    simp only [runTestCase, repr_eq h.rep, bind, Except.bind]
  rw [hrun]
  split
  · rename_i hr
    obtain ⟨b, e, hb⟩ := h1 hr
    exact ⟨b, e, contents_eq hb.rep⟩
  · rename_i hr
    exact h2 hr

/-- bit_bucket_test.py 48-58, the first list of tests. -/
def shipped119 : List ((List Nat × Nat) × Str) :=
  [(([0xFF, 0], 14), b!"|11111111|000000 [6]"),
   (([0xFF], 3), b!"|11111111|00000011|1 [1]"),
   (([0x00], 3), b!"|11111111|00000011|1000 [4]"),
   (([0xFF, 0], 14), b!"|11111111|00000011|10001111|11110000|00 [2]"),
   (([0xFF], 4), b!"|11111111|00000011|10001111|11110000|001111 [6]"),
   (([0x0], 4), b!"|11111111|00000011|10001111|11110000|00111100|00 [2]")]

example : (∀ x ∈ shipped119, (Op.store x.1.1 x.1.2).Ok) ∧ Right119 [] shipped119 := by
  refine ⟨fun x h => ?_, by decide +kernel⟩
  simp only [shipped119, List.mem_cons, List.not_mem_nil, or_false] at h
  rcases h with rfl | rfl | rfl | rfl | rfl | rfl <;> exact ⟨by decide, by decide⟩

example : ¬ Right119 [] [(([0xFF, 0], 14), b!"|11111111|000000 [14]")] := by decide +kernel

theorem barLoop_eq : ∀ (cs : Str) (i : Nat), barLoop i cs = barred114 i cs
  | [], _ => rfl
  | c :: cs, i => by rw [barLoop, barLoop_eq cs (i + 1), barred114_cons]

theorem barred_space (bits : List Bool) (n : Nat) : ∀ c ∈ barred114 n (digits114 bits), c ≠ 32 := by
  intro c hc
  simp only [barred114, digits114, List.mem_flatMap] at hc
  obtain ⟨x, hx, hc⟩ := hc
  have hm : x.1 ∈ bits.map fun b => if b then 49 else 48 := by
    obtain ⟨-, h2, h3⟩ := List.mem_zipIdx hx
    rw [h3]
    exact List.getElem_mem _
  obtain ⟨b, -, hb⟩ := List.mem_map.mp hm
  rw [← hb] at hc
  cases b <;> split at hc <;> simp at hc <;> omega

theorem text_before (bits : List Bool) : (text117 bits).takeWhile (· ≠ 32) = barred114 0 (digits114 bits) := by
  have hs := barred_space bits 0
  rw [text117, List.append_assoc, List.append_assoc, List.takeWhile_append_of_pos (by simpa using hs)]
  simp

/-- C119: ReformatExpectedStr makes of the text of a bucket the one of a bucket with further bits in front. -/
theorem C119_reformat (pre bits : List Bool) :
    reformatExpected (digits114 pre) (text117 bits) = text117 (pre ++ bits) := by
  unfold reformatExpected
  rw [text_before, barred114_filter]
  show barLoop 0 (digits114 pre ++ digits114 bits) ++ _ ++ _ ++ _ = _
  rw [barLoop_eq, text117]
  simp [digits114]

theorem storeChars_ok : ∀ (bits : List Bool) (n : Nat) (b : BitBucket) (t : Tape), Holds b t →
    ∃ b', storeChars b (barred114 n (digits114 bits)) = .ok b' ∧ Holds b' (t.write bits)
  | [], _, b, t, h => ⟨b, rfl, by simpa [Tape.write] using h⟩
  | x :: bits, n, b, t, h => by
    obtain ⟨h1, h2⟩ := call_sim h (.storeBit x) trivial
    have hs : ∃ b1, storeBit b x = .ok b1 ∧ Holds b1 (t.write [x]) := by
      simp only [call, applyStore] at h1 h2
      cases e : storeBit b x with
      | error err => rw [e] at h1; cases h1
      | ok b1 => rw [e] at h2; exact ⟨b1, rfl, h2⟩
    obtain ⟨b1, e1, hb1⟩ := hs
    obtain ⟨b', e2, hb'⟩ := storeChars_ok bits (n + 1) b1 _ hb1
    refine ⟨b', ?_, by simpa [Tape.write] using hb'⟩
    rw [show digits114 (x :: bits) = (if x then 49 else 48) :: digits114 bits from rfl, barred114_cons]
    cases x <;> split <;> simp [storeChars, bind, Except.bind, e1, e2, pure, Except.pure]

/-- C119: StoreBitsFromString stores the bits of a text, behind those there. -/
theorem C119_from_string (ops : List Op) (hops : ∀ op ∈ ops, op.Ok) (bits : List Bool) :
    ∃ b, storeFromString (calls BitBucket.empty ops).1 (text117 bits) = .ok b ∧
      Bits.repr b = .ok (text117 ((run ⟨[], 0⟩ ops).1.bits ++ bits)) := by
  obtain ⟨b, e, h⟩ := storeChars_ok bits 0 _ _ (calls_sim ops hops holds_empty).2
  exact ⟨b, by rw [storeFromString, text_before, e], repr_eq h.rep⟩

example : reformatExpected b!"11" b!"|11011101|111 [3]" = b!"|11110111|01111 [5]" := by decide +kernel

end Verif.Props
