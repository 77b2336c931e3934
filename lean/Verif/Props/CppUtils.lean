import Verif.Cpp.Print
import Verif.Cpp.Get
import Verif.Props.CppHuffman
import Verif.PyLemmas
/-
Properties C114 and C115: the output functions of the C++ code, and its test of the bit bucket.
-/
namespace Verif.Props
open Verif Verif.Cpp Verif.Cpp.Spec Bits.Spec
open Verif.Stats (dec)

/-! ### What is to be shown -/

/-- Characters in groups of eight, with a bar in front of each group; the first character has the number `n`. -/
def barred114 (n : Nat) (cs : Str) : Str := (cs.zipIdx n).flatMap fun x => if x.2 % 8 = 0 then [124, x.1] else [x.1]

/-- Bits as digits. -/
def digits114 (bits : List Bool) : Str := bits.map fun b => if b then 49 else 48

theorem barred114_nil (n : Nat) : barred114 n [] = [] := rfl

theorem barred114_cons (n c : Nat) (cs : Str) :
    barred114 n (c :: cs) = (if n % 8 = 0 then [124] else []) ++ [c] ++ barred114 (n + 1) cs := by
  simp only [barred114, List.zipIdx_cons, List.flatMap_cons]
  split <;> rfl

theorem barred114_append (n : Nat) (cs ds : Str) :
    barred114 n (cs ++ ds) = barred114 n cs ++ barred114 (n + cs.length) ds := by
  simp only [barred114, List.zipIdx_append, List.flatMap_append]

/-- Without the bars it is the digits. -/
theorem barred114_filter : ∀ (bits : List Bool) (n : Nat),
    (barred114 n (digits114 bits)).filter (· ≠ 124) = digits114 bits
  | [], _ => rfl
  | b :: bits, n => by
    rw [show digits114 (b :: bits) = (if b then 49 else 48) :: digits114 bits from rfl, barred114_cons,
      List.filter_append, List.filter_append, barred114_filter bits (n + 1)]
    cases b <;> by_cases h : n % 8 = 0 <;> simp [h]

theorem digits114_inj {a b : List Bool} (h : digits114 a = digits114 b) : a = b := by
  refine List.map_injective_iff.mpr ?_ h
  intro x y e
  cases x <;> cases y <;> simp_all

/-- The text of bits determines them. -/
theorem barred114_inj {a b : List Bool} {n m : Nat} (h : barred114 n (digits114 a) = barred114 m (digits114 b)) : a = b := by
  have := congrArg (List.filter (fun c => decide (c ≠ 124))) h
  rw [barred114_filter, barred114_filter] at this
  exact digits114_inj this

/-! ### FormatAsBits -/

theorem bar_eq (i off : Nat) : bar i off = if (off + i) % 8 = 0 then [124] else [] := by
  unfold bar
  have : ((i : Int) + (off : Int)).tmod 8 = 0 ↔ (off + i) % 8 = 0 := by
    rw [Int.tmod_eq_emod_of_nonneg (by omega)]
    omega
  by_cases h : (off + i) % 8 = 0
  · rw [if_pos h, if_pos (this.mpr h)]
  · rw [if_neg h, if_neg (fun e => h (this.mp e))]

theorem bit_at (v : List Nat) (i : Nat) (c : Nat) (h : v[i / 8]? = some c) :
    ∃ rest, (bitsOf v).drop i = (c &&& (0x80 >>> (i % 8)) != 0) :: rest := by
  obtain ⟨hi, rfl⟩ := List.getElem?_eq_some_iff.mp h
  have e := bits_at v (i / 8) (i % 8) hi (by omega)
  rw [show 8 * (i / 8) + i % 8 = i by omega] at e
  have hb := byte_bit v[i / 8] (i % 8) (by omega)
  have hne : (byteBits v[i / 8]).drop (i % 8) ≠ [] := by
    intro hc
    have := congrArg List.length hc
    simp [byteBits, natBits] at this
    omega
  obtain ⟨x, l, hxl⟩ := List.exists_cons_of_ne_nil hne
  rw [hxl] at hb e
  rw [e, hb]
  exact ⟨_, rfl⟩

theorem formatVecFrom_ok (v : List Nat) (off : Nat) : ∀ (n i : Nat), i + n ≤ 8 * v.length →
    formatVecFrom v off i n = .ok (barred114 (off + i) (digits114 (((bitsOf v).drop i).take n)))
  | 0, i, _ => by simp [formatVecFrom, digits114, barred114]
  | n + 1, i, h => by
    have hi : i / 8 < v.length := by omega
    obtain ⟨rest, e⟩ := bit_at v i v[i / 8] (List.getElem?_eq_getElem hi)
    have ih := formatVecFrom_ok v off n (i + 1) (by omega)
    have e1 : (bitsOf v).drop (i + 1) = rest := by
      rw [← List.drop_drop, e]; rfl
    simp only [formatVecFrom, List.getElem?_eq_getElem hi, bind, Except.bind, ih, e1, bar_eq, e, List.take_succ_cons]
    rw [show digits114 ((v[i / 8] &&& (128 >>> (i % 8)) != 0) :: rest.take n) =
      bitChar (v[i / 8] &&& (128 >>> (i % 8)) != 0) :: digits114 (rest.take n) from rfl, barred114_cons]
    rfl

theorem formatVecFrom_err (v : List Nat) (off : Int) : ∀ (n i : Nat), i ≤ 8 * v.length → 8 * v.length < i + n →
    formatVecFrom v off i n = .error .index
  | 0, i, h1, h2 => by omega
  | n + 1, i, h1, h2 => by
    by_cases hi : i / 8 < v.length
    · have ih := formatVecFrom_err v off n (i + 1) (by omega) (by omega)
      simp only [formatVecFrom, List.getElem?_eq_getElem hi, bind, Except.bind, ih]
    · simp only [formatVecFrom, List.getElem?_eq_none (Nat.le_of_not_lt hi)]

/-- C114: FormatAsBits of a vector shows exactly the first `n` of its bits, in groups of eight as from the number `off`; it
reads outside the vector if and only if there are not so many. -/
theorem C114_vec (v : List Nat) (n off : Nat) :
    formatVec v n off = if n ≤ 8 * v.length then .ok (barred114 off (digits114 ((bitsOf v).take n))) else .error .index := by
  by_cases h : n ≤ 8 * v.length
  · rw [if_pos h, formatVec, formatVecFrom_ok v off n 0 (by omega)]
    simp
  · rw [if_neg h, formatVec, formatVecFrom_err v off n 0 (by omega) (by omega)]

theorem natBits_length (w v : Nat) : (natBits w v).length = w := by simp [natBits]

theorem natBits_get (w v i : Nat) (h : i < w) : (natBits w v)[i]? = some (v.testBit (w - 1 - i)) := by
  simp [natBits, h]

theorem shift_bit (v k : Nat) : decide ((v >>> k) &&& 1 > 0) = v.testBit k := by
  rw [Nat.testBit, Nat.and_comm]
  generalize 1 &&& (v >>> k) = x
  cases x <;> simp

theorem formatWordFrom_ok (w v off : Nat) : ∀ (n i : Nat), i + n ≤ w →
    formatWordFrom w v off i n = .ok (barred114 (off + i) (digits114 (((natBits w v).drop i).take n)))
  | 0, i, _ => by simp [formatWordFrom, digits114, barred114]
  | n + 1, i, h => by
    have ih := formatWordFrom_ok w v off n (i + 1) (by omega)
    have hl : i < (natBits w v).length := by rw [natBits_length]; omega
    have hg : (natBits w v)[i] = v.testBit (w - 1 - i) := by
      have := natBits_get w v i (by omega)
      rw [List.getElem?_eq_getElem hl] at this
      exact Option.some.inj this
    rw [formatWordFrom, if_pos (by omega)]
    simp only [bind, Except.bind, ih, bar_eq, shift_bit]
    rw [List.drop_eq_getElem_cons hl, hg, List.take_succ_cons,
      show ∀ (b : Bool) l, digits114 (b :: l) = bitChar b :: digits114 l from fun _ _ => rfl, barred114_cons]
    rfl

theorem formatWordFrom_err (w v : Nat) (off : Int) : ∀ (n i : Nat), i ≤ w → w < i + n →
    formatWordFrom w v off i n = .error .index
  | 0, i, h1, h2 => by omega
  | n + 1, i, h1, h2 => by
    by_cases hi : i < w
    · have ih := formatWordFrom_err w v off n (i + 1) (by omega) (by omega)
      simp only [formatWordFrom, if_pos hi, bind, Except.bind, ih]
    · simp only [formatWordFrom, if_neg hi]

/-- C114: FormatAsBits of an integer of `w` bits shows exactly the `n` most significant of them; the shift is undefined if and
only if there are not so many. -/
theorem C114_word (w v n off : Nat) :
    formatWord w v n off = if n ≤ w then .ok (barred114 off (digits114 ((natBits w v).take n))) else .error .index := by
  by_cases h : n ≤ w
  · rw [if_pos h, formatWord, formatWordFrom_ok w v off n 0 (by omega)]
    simp
  · rw [if_neg h, formatWord, formatWordFrom_err w v off n 0 (by omega) (by omega)]

example : formatWord 16 0xa5f0 12 0 = .ok b!"|10100101|1111" := by decide +kernel
example : formatVec [0xa5, 0xf0] 12 3 = .ok b!"10100|1011111" := by decide +kernel

/-! ### Characters -/

/-- C114: ReadableUShort aborts above 257, and only there. -/
theorem C114_char_total (c : Nat) : (readable c = .error .assertion ↔ 257 < c) ∧ (c ≤ 257 → ∃ s, readable c = .ok s) := by
  unfold readable
  by_cases h : c > 256 + 1
  · rw [if_pos h]
    exact ⟨⟨fun _ => by omega, fun _ => rfl⟩, fun _ => by omega⟩
  · rw [if_neg h]
    by_cases h2 : c ≥ 256
    · rw [if_pos h2]
      exact ⟨⟨fun e => (by cases e), fun _ => by omega⟩, fun _ => ⟨_, rfl⟩⟩
    · rw [if_neg h2]
      exact ⟨⟨fun e => (by cases e), fun _ => by omega⟩, fun _ => ⟨_, rfl⟩⟩

set_option maxRecDepth 100000 in
theorem readable_nodup : ((List.range 258).map readable).Nodup := by decide +kernel

set_option maxRecDepth 100000 in
theorem readable_print : ∀ c < 258, ∀ s, readable c = .ok s → s.all (fun d => decide (32 ≤ d ∧ d < 127)) = true := by
  have : ∀ c < 258, (match readable c with | .ok s => s.all (fun d => decide (32 ≤ d ∧ d < 127)) | .error _ => true) = true := by
    decide +kernel
  intro c hc s hs
  have h := this c hc
  rw [hs] at h
  exact h

/-- C114: different characters are shown differently, in printable characters. -/
theorem C114_char (c d : Nat) (s : Str) (hc : readable c = .ok s) :
    (readable d = .ok s → c = d) ∧ ∀ x ∈ s, 32 ≤ x ∧ x < 127 := by
  have hlt : ∀ c s, readable c = .ok s → c < 258 := by
    intro c s h
    by_contra hn
    rw [((C114_char_total c).1).mpr (by omega)] at h
    cases h
  refine ⟨fun hd => ?_, fun x hx => ?_⟩
  · have h1 := hlt c s hc
    have h2 := hlt d s hd
    exact List.inj_on_of_nodup_map readable_nodup (List.mem_range.mpr h1) (List.mem_range.mpr h2) (by rw [hc, hd])
  · have := readable_print c (hlt c s hc) s hc
    rw [List.all_eq_true] at this
    simpa using this x hx

example : readable 65 = .ok b!" 'A'" ∧ readable 9 = .ok b!" '\\t'" ∧ readable 200 = .ok b!" '\\xc8'" ∧
    readable 7 = .ok b!" '\\x07'" ∧ readable 256 = .ok b!"256" := by decide +kernel

/-! ### The bit bucket -/

theorem asString_holds {b : BB} {t : Tape} (h : HoldsC b t) :
    asString b = .ok (barred114 0 (digits114 t.bits) ++ b!" [" ++ dec t.bits.length ++ b!"," ++ dec (t.bits.length % 8) ++
      b!"]") := by
  have hl := h.length
  have e := C114_vec b.bsa b.numBits 0
  rw [if_pos (by rw [h.num]; omega), h.content, h.num, List.take_left] at e
  simp only [asString, h.num, h.boff]
  rw [show ((0 : Nat) : Int) = 0 from rfl] at e
  simp only [bind, Except.bind, e]
  rfl

/-- C114: whatever was stored and read, AsString shows exactly the bits stored, in groups of eight, with their number and the
number of bits in the last byte. -/
theorem C114_bucket (ops : List Cpp.Spec.Op) (hops : LegalAll ⟨[], 0⟩ ops) :
    ∃ b rs, calls BB.empty ops = .ok (b, rs) ∧
      asString b = .ok (barred114 0 (digits114 (Cpp.Spec.run ⟨[], 0⟩ ops).1.bits) ++ b!" [" ++
        dec (Cpp.Spec.run ⟨[], 0⟩ ops).1.bits.length ++ b!"," ++ dec ((Cpp.Spec.run ⟨[], 0⟩ ops).1.bits.length % 8) ++ b!"]") := by
  obtain ⟨b, he, hh⟩ := calls_spec ops holdsC_empty hops
  exact ⟨b, _, he, asString_holds hh⟩

example : LegalAll ⟨[], 0⟩ [.bits [0xff, 0x00] 14, .getBit, .bits [0xff] 3] := by
  refine ⟨⟨by decide, by decide⟩, ?_, ⟨by decide, by decide⟩, trivial⟩
  show (0 : Nat) < _
  decide

theorem marks_eq (c : Nat) : ∀ (n i : Nat), marks c i n = barred114 i (List.replicate n c)
  | 0, _ => rfl
  | n + 1, i => by rw [marks, marks_eq c n (i + 1), List.replicate_succ, barred114_cons]

/-- C114: below the text of the bucket, DebugStr shows a dash under each bit that was read, and the signs for the next ones
right behind them, in the same columns. -/
theorem C114_debug (ops : List Cpp.Spec.Op) (hops : LegalAll ⟨[], 0⟩ ops) (offset range : Nat) :
    ∃ b rs, calls BB.empty ops = .ok (b, rs) ∧
      debugStr b offset range =
        barred114 0 (List.replicate ((Cpp.Spec.run ⟨[], 0⟩ ops).1.pos + offset) 45 ++ List.replicate range 94) := by
  obtain ⟨b, he, hh⟩ := calls_spec ops holdsC_empty hops
  refine ⟨b, _, he, ?_⟩
  have : b.idxByte * 8 + b.idxBoff = (Cpp.Spec.run ⟨[], 0⟩ ops).1.pos := by have := hh.pos; omega
  simp only [debugStr, marks_eq, this, barred114_append, List.length_replicate, Nat.zero_add]

/-! ### The Huffman coder -/

theorem printFrom_ok : ∀ (ws : List (List Bool)) (codes : List CodeEntry) (i : Nat),
    codes.map (fun e => (bitsOf e.vec).take e.len) = ws → (∀ e ∈ codes, e.len ≤ 8 * e.vec.length) → i + codes.length ≤ 258 →
    ∃ rs : List Str, rs.length = ws.length ∧ (∀ k r, rs[k]? = some r → readable (i + k) = .ok r) ∧
      printFrom codes i = .ok ((ws.zip rs).flatMap fun x => barred114 0 (digits114 x.1) ++ b!" " ++ x.2 ++ b!"\n")
  | ws, [], i, hw, _, _ => by
    cases hw
    exact ⟨[], rfl, fun k r h => by simp at h, rfl⟩
  | ws, e :: codes, i, hw, hl, hi => by
    cases hw
    simp only [List.length_cons] at hi
    obtain ⟨rs, h1, h2, h3⟩ := printFrom_ok _ codes (i + 1) rfl (fun e he => hl e (by simp [he])) (by omega)
    obtain ⟨r, hr⟩ := (C114_char_total i).2 (by omega)
    have e1 := C114_vec e.vec e.len 0
    rw [if_pos (hl e (by simp)), show ((0 : Nat) : Int) = 0 from rfl] at e1
    refine ⟨r :: rs, by simp [h1], fun k s hk => ?_, ?_⟩
    · cases k with
      | zero => simp only [List.getElem?_cons_zero, Option.some.injEq] at hk; rw [← hk]; exact hr
      | succ k =>
        rw [List.getElem?_cons_succ] at hk
        rw [show i + (k + 1) = i + 1 + k by omega]
        exact h2 k s hk
    · simp only [printFrom, bind, Except.bind, e1, hr, h3, List.map_cons, List.zip_cons_cons, List.flatMap_cons]
      rfl

theorem barred114_chars : ∀ (bits : List Bool) (n : Nat), 10 ∉ barred114 n (digits114 bits)
  | [], _ => by simp [barred114, digits114]
  | b :: bits, n => by
    have ih := barred114_chars bits (n + 1)
    rw [show digits114 (b :: bits) = (if b then 49 else 48) :: digits114 bits from rfl, barred114_cons]
    cases b <;> by_cases h : n % 8 = 0 <;> simp [h, ih]

theorem lines_inj : ∀ (ws vs : List (List Bool)) (rs : List Str), ws.length = rs.length → vs.length = rs.length →
    (∀ r ∈ rs, 10 ∉ r) →
    ((ws.zip rs).flatMap fun x => barred114 0 (digits114 x.1) ++ b!" " ++ x.2 ++ b!"\n") =
      ((vs.zip rs).flatMap fun x => barred114 0 (digits114 x.1) ++ b!" " ++ x.2 ++ b!"\n") → ws = vs
  | [], [], _, _, _, _, _ => rfl
  | [], _ :: _, rs, h1, h2, _, _ => by rw [← h1] at h2; cases h2
  | _ :: _, [], rs, h1, h2, _, _ => by rw [← h2] at h1; cases h1
  | w :: ws, v :: vs, [], h1, _, _, _ => by cases h1
  | w :: ws, v :: vs, r :: rs, h1, h2, hr, h => by
    simp only [List.zip_cons_cons, List.flatMap_cons, List.append_assoc] at h
    have hn : ∀ a : List Bool, 10 ∉ barred114 0 (digits114 a) ++ (b!" " ++ r) := by
      intro a
      simp only [List.mem_append, not_or]
      exact ⟨barred114_chars a 0, by decide, hr r (by simp)⟩
    have e : ∀ (a : List Bool) (X : Str), barred114 0 (digits114 a) ++ (b!" " ++ (r ++ (b!"\n" ++ X))) =
        (barred114 0 (digits114 a) ++ (b!" " ++ r)) ++ 10 :: X := by
      intro a X
      simp only [List.append_assoc, List.cons_append, List.nil_append]
    rw [e, e] at h
    have h' := congrArg (splitOnce 10) h
    rw [splitOnce_eq (hn w), splitOnce_eq (hn v)] at h'
    simp only [Option.some.injEq, Prod.mk.injEq] at h'
    have hw := barred114_inj (List.append_cancel_right h'.1)
    have ht := lines_inj ws vs rs (by simpa using h1) (by simpa using h2) (fun r hm => hr r (by simp [hm]))
      (by simpa only [List.append_assoc] using h'.2)
    rw [hw, ht]

/-- C114: printing a coder made for 257 symbols does not fault; there is a line for each symbol, in order, with exactly its
code word. -/
theorem C114_coder {W : Type} (ops : Huff.Weights W) (table : Huff.FreqTable) (hsyms : table.map (·.1) = List.range 257)
    (h : Coder) (hi : init ops Coder.fresh table = .ok h) :
    ∃ rs : List Str, rs.length = 257 ∧ (∀ k r, rs[k]? = some r → readable k = .ok r) ∧
      printCoder h = .ok (((words h).zip rs).flatMap fun x => barred114 0 (digits114 x.1) ++ b!" " ++ x.2 ++ b!"\n") := by
  obtain ⟨h1, -, -, t, d, -, h2⟩ := C90_code ops table hsyms h hi
  have hlen : h.codes.length = 257 := by simpa [words] using h1
  obtain ⟨rs, r1, r2, r3⟩ := printFrom_ok (words h) h.codes 0 rfl (by
    intro e he
    obtain ⟨k, hk, rfl⟩ := List.getElem_of_mem he
    have hw : (words h)[k]? = some ((bitsOf h.codes[k].vec).take h.codes[k].len) := by
      simp [words, hk]
    obtain ⟨-, -, -, h5⟩ := h2 k _ hw
    rw [List.getElem?_eq_getElem hk, Option.some.injEq] at h5
    have hl := congrArg CodeEntry.len h5
    simp only [List.length_take] at hl
    have : (bitsOf h.codes[k].vec).length = 8 * h.codes[k].vec.length := by
      generalize h.codes[k].vec = v
      induction v with
      | nil => rfl
      | cons x v ih =>
        simp only [bitsOf, List.flatMap_cons, List.length_append, List.length_cons] at ih ⊢
        rw [ih]
        simp only [byteBits, natBits_length]
        omega
    omega) (by omega)
  refine ⟨rs, by rw [r1, h1], fun k r hk => ?_, r3⟩
  have := r2 k r hk
  rwa [Nat.zero_add] at this

/-- C114: the printed table determines the code. -/
theorem C114_coder_inj {V W : Type} (ops : Huff.Weights V) (ops' : Huff.Weights W) (table table' : Huff.FreqTable)
    (hsyms : table.map (·.1) = List.range 257) (hsyms' : table'.map (·.1) = List.range 257) (h h' : Coder)
    (hi : init ops Coder.fresh table = .ok h) (hi' : init ops' Coder.fresh table' = .ok h')
    (he : printCoder h = printCoder h') : words h = words h' := by
  obtain ⟨rs, l1, r1, p1⟩ := C114_coder ops table hsyms h hi
  obtain ⟨rs', l2, r2, p2⟩ := C114_coder ops' table' hsyms' h' hi'
  have hw := (C90_code ops table hsyms h hi).1
  have hw' := (C90_code ops' table' hsyms' h' hi').1
  have hrs : rs = rs' := by
    apply List.ext_getElem? 
    intro k
    by_cases hk : k < 257
    · have a1 := List.getElem?_eq_getElem (l := rs) (i := k) (by omega)
      have a2 := List.getElem?_eq_getElem (l := rs') (i := k) (by omega)
      have b1 := r1 k _ a1
      have b2 := r2 k _ a2
      rw [b1] at b2
      rw [a1, a2]
      exact congrArg some (Except.ok.inj b2)
    · rw [List.getElem?_eq_none (by omega), List.getElem?_eq_none (by omega)]
  subst hrs
  rw [p1, p2] at he
  refine lines_inj _ _ rs (by omega) (by omega) (fun r hr hm => ?_) (Except.ok.inj he)
  obtain ⟨k, hk, rfl⟩ := List.getElem_of_mem hr
  have := (C114_char k k _ (r1 k _ (List.getElem?_eq_getElem hk))).2 10 hm
  omega

/-! ### The test of the bit bucket -/

/-- The bits that a test stores. -/
def stored115 (test : Testcase) : List Bool := (bitsOf test.v).take test.numBits

/-- The text that shows these bits. -/
def text115 (bits : List Bool) : Str :=
  barred114 0 (digits114 bits) ++ b!" [" ++ dec bits.length ++ b!"," ++ dec (bits.length % 8) ++ b!"]"

/-- A test gives as many bytes as its bits need. -/
def Legal115 (test : Testcase) : Prop := (∀ x ∈ test.v, x < 256) ∧ test.v.length = (test.numBits + 7) / 8

/-- What the tests expect is right, each time for all that was stored up to then. -/
def Right115 : List Bool → List Testcase → Prop
  | _, [] => True
  | bits, test :: tests => test.expected = text115 (bits ++ stored115 test) ∧ Right115 (bits ++ stored115 test) tests

instance decRight115 : ∀ (tests : List Testcase) (bits : List Bool), Decidable (Right115 bits tests)
  | [], _ => isTrue trivial
  | test :: tests, bits =>
    have := decRight115 tests (bits ++ stored115 test)
    inferInstanceAs (Decidable (_ ∧ _))

/-- How many of them expect a wrong number of bytes. -/
def wrongBytes115 : Nat → List Testcase → Nat
  | _, [] => 0
  | n, test :: tests =>
    (if test.numBytes = (n + test.numBits + 7) / 8 then 0 else 1) + wrongBytes115 (n + test.numBits) tests

theorem stored115_length (test : Testcase) (h : Legal115 test) : (stored115 test).length = test.numBits := by
  have hl : ∀ v : List Nat, (bitsOf v).length = 8 * v.length := by
    intro v
    induction v with
    | nil => rfl
    | cons x v ih =>
      simp only [bitsOf, List.flatMap_cons, List.length_append, List.length_cons] at ih ⊢
      rw [ih]
      simp only [byteBits, natBits_length]
      omega
  rw [stored115, List.length_take, hl, h.2]
  omega

theorem pack_bits (bits : List Bool) : (bitsOf (pack bits)).take bits.length = bits ∧ bits.length ≤ 8 * (pack bits).length := by
  have e := Bits.bits_pack bits
  refine ⟨by rw [e, List.take_left], ?_⟩
  have hl : ∀ v : List Nat, (bitsOf v).length = 8 * v.length := by
    intro v
    induction v with
    | nil => rfl
    | cons x v ih =>
      simp only [bitsOf, List.flatMap_cons, List.length_append, List.length_cons] at ih ⊢
      rw [ih]
      simp only [byteBits, natBits_length]
      omega
  have := congrArg List.length e
  rw [hl, List.length_append] at this
  omega

theorem readBits_ok : ∀ (n j : Nat) {b : BB} {t : Tape}, HoldsC b t → t.pos + n ≤ t.bits.length →
    ∃ b', readBits b j n = (b', barred114 j (digits114 ((t.bits.drop t.pos).take n))) ∧ HoldsC b' { t with pos := t.pos + n }
  | 0, j, b, t, h, _ => ⟨b, by simp [readBits, digits114, barred114], h⟩
  | n + 1, j, b, t, h, hn => by
    obtain ⟨h1, h2⟩ := holdsC_getBit h (by omega)
    obtain ⟨b', e, h3⟩ := readBits_ok n (j + 1) h2 (by show t.pos + 1 + n ≤ t.bits.length; omega)
    have hd : t.bits.drop t.pos = (getBit b).2 :: t.bits.drop (t.pos + 1) := by
      have hl : t.pos < t.bits.length := by omega
      rw [h1, List.drop_eq_getElem_cons hl]
      rfl
    refine ⟨b', ?_, by rw [show t.pos + (n + 1) = t.pos + 1 + n by omega]; exact h3⟩
    simp only [readBits, e]
    rw [hd, List.take_succ_cons, show ∀ (b : Bool) l, digits114 (b :: l) = bitChar b :: digits114 l from fun _ _ => rfl,
      barred114_cons]

theorem digits114_append (a b : List Bool) : digits114 (a ++ b) = digits114 a ++ digits114 b := by
  simp [digits114]

theorem digits114_length (a : List Bool) : (digits114 a).length = a.length := by simp [digits114]

theorem offsets_ok (bits : List Bool) : ∀ (n i : Nat) {b : BB} {p : Nat}, HoldsC b ⟨bits, p⟩ → (0 < n → i + n ≤ bits.length) →
    ∃ b' p', offsets bits.length (text115 bits) i n b = .ok (b', 0) ∧ HoldsC b' ⟨bits, p'⟩
  | 0, i, b, p, h, _ => ⟨b, p, rfl, h⟩
  | n + 1, i, b, p, h, hi => by
    replace hi := hi (by omega)
    obtain ⟨b1, e1, h1⟩ := readBits_ok i 0 (holdsC_seek h 0) (by show 0 + i ≤ bits.length; omega)
    obtain ⟨b2, e2, h2⟩ := holdsC_getBits h1 [] (bits.length - i) (by show 0 + i + (bits.length - i) ≤ bits.length; omega)
    obtain ⟨b3, p3, e3, h3⟩ := offsets_ok bits n (i + 1) h2 (fun _ => by omega)
    refine ⟨b3, p3, ?_, h3⟩
    have hd : ((bits.drop (0 + i)).take (bits.length - i)) = bits.drop i := by
      rw [Nat.zero_add, List.take_of_length_le (by rw [List.length_drop])]
    simp only [hd, List.nil_append] at e2
    have hv : formatVec (pack (bits.drop i)) (bits.length - i) i = .ok (barred114 i (digits114 (bits.drop i))) := by
      have hp := pack_bits (bits.drop i)
      rw [List.length_drop] at hp
      rw [C114_vec, if_pos hp.2, hp.1]
    have ht : barred114 0 (digits114 (bits.take i)) ++ barred114 i (digits114 (bits.drop i)) = barred114 0 (digits114 bits) := by
      conv_rhs => rw [← List.take_append_drop i bits, digits114_append, barred114_append, digits114_length,
        List.length_take, Nat.min_eq_left (by omega), Nat.zero_add]
    simp only [List.drop_zero] at e1
    simp only [offsets, e1, bind, Except.bind, e2, hv, e3, ht]
    rw [if_neg (by simp [text115])]
    rfl

theorem testGetBits_ok (bits : List Bool) (test : Testcase) {b : BB} {p : Nat} (h : HoldsC b ⟨bits, p⟩)
    (ht : test.expected = text115 bits) : ∃ b' p', testGetBits b test = .ok (b', 0) ∧ HoldsC b' ⟨bits, p'⟩ := by
  obtain ⟨b2, e2, h2⟩ := holdsC_getBits (holdsC_seek h 0) [] bits.length (by show 0 + bits.length ≤ bits.length; omega)
  obtain ⟨b3, p3, e3, h3⟩ := offsets_ok bits (min 8 bits.length - 1) 1 h2 (fun _ => by omega)
  refine ⟨b3, p3, ?_, h3⟩
  have hn : (seek b 0).numBits = bits.length := h.num
  simp only [List.drop_zero, List.take_length, List.nil_append] at e2
  have hv : formatVec (pack bits) bits.length 0 = .ok (barred114 0 (digits114 bits)) := by
    have hp := pack_bits bits
    have := C114_vec (pack bits) bits.length 0
    rw [if_pos hp.2, hp.1] at this
    exact this
  simp only [testGetBits, hn, bind, Except.bind, e2, hv, ht]
  rw [if_neg (by simp [text115])]
  exact e3

theorem testStoreBits_eq (bits : List Bool) (test : Testcase) {b : BB} {p : Nat} (h : HoldsC b ⟨bits, p⟩)
    (hl : Legal115 test) :
    ∃ b', HoldsC b' ⟨bits ++ stored115 test, p⟩ ∧
      testStoreBits b test = if test.expected = text115 (bits ++ stored115 test) then .ok b' else .error .assertion := by
  obtain ⟨b', e, hh⟩ := call_spec h (.bits test.v test.numBits) hl
  have e' : storeBits b test.v test.numBits = .ok b' := by
    simp only [call, bind, Except.bind] at e
    cases hs : storeBits b test.v test.numBits with
    | error x => rw [hs] at e; cases e
    | ok y =>
      rw [hs] at e
      simp only [pure, Except.pure, Except.ok.injEq, Prod.mk.injEq] at e
      rw [e.1]
  have hh' : HoldsC b' ⟨bits ++ stored115 test, p⟩ := hh
  refine ⟨b', hh', ?_⟩
  have hv := C114_vec test.v test.numBits 0
  rw [if_pos (by rw [hl.2]; omega), show ((0 : Nat) : Int) = 0 from rfl] at hv
  have ha := asString_holds hh'
  simp only [testStoreBits, bind, Except.bind, hv, e', ha]
  by_cases ht : test.expected = text115 (bits ++ stored115 test)
  · rw [if_pos ht, if_neg (by rw [ht]; simp [text115])]
    rfl
  · rw [if_neg ht, if_pos (by intro hc; exact ht hc)]

theorem testLoop_eq : ∀ (tests : List Testcase) (bits : List Bool) {b : BB} {p : Nat}, HoldsC b ⟨bits, p⟩ →
    (∀ test ∈ tests, Legal115 test) →
    testLoop b tests = if Right115 bits tests then .ok (wrongBytes115 bits.length tests) else .error .assertion
  | [], bits, b, p, h, _ => by
    have hr : Right115 bits [] := trivial
    rw [if_pos hr]
    rfl
  | test :: tests, bits, b, p, h, hl => by
    have hlt := hl test (by simp)
    obtain ⟨b1, h1, e1⟩ := testStoreBits_eq bits test h hlt
    by_cases ht : test.expected = text115 (bits ++ stored115 test)
    · rw [if_pos ht] at e1
      obtain ⟨b2, p2, e2, h2⟩ := testGetBits_ok _ test h1 ht
      have ih := testLoop_eq tests _ h2 (fun t hm => hl t (by simp [hm]))
      have hlen := h2.length
      have hs := stored115_length test hlt
      have hlen' : b2.bsa.length = (bits.length + test.numBits + 7) / 8 := by
        simp only [List.length_append, hs] at hlen
        omega
      simp only [testLoop, bind, Except.bind, e1, e2, ih]
      by_cases hr : Right115 (bits ++ stored115 test) tests
      · have hr' : Right115 bits (test :: tests) := ⟨ht, hr⟩
        rw [if_pos hr, if_pos hr']
        simp only [wrongBytes115, testBytesRequired, hlen', List.length_append, hs, pure, Except.pure]
        congr 1
        by_cases hn : test.numBytes = (bits.length + test.numBits + 7) / 8
        · rw [if_pos hn, if_neg (by rw [hn]; simp)]
        · rw [if_neg hn, if_pos (fun hc => hn hc.symm)]
      · rw [if_neg hr, if_neg (fun hc : Right115 bits (test :: tests) => hr hc.2)]
    · rw [if_neg ht] at e1
      rw [if_neg (fun hc : Right115 bits (test :: tests) => ht hc.1)]
      simp only [testLoop, bind, Except.bind, e1]

/-- C115: the test program of the bit bucket, for every list of tests that give as many bytes as their bits need: it aborts if
and only if a text that it expects is not that of the bits stored so far; otherwise what is read back from every offset is
right, and FAILED is printed exactly for the wrong numbers of bytes. -/
theorem C115 (tests : List Testcase) (hl : ∀ test ∈ tests, Legal115 test) :
    runTests tests = if Right115 [] tests then .ok (wrongBytes115 0 tests) else .error .assertion :=
  testLoop_eq tests [] holdsC_empty hl

/-- bit_bucket_test.cc 99-110, the first list of the program. -/
def shipped115 : List Testcase :=
  [⟨2, [0xff, 0x00], 14, b!"|11111111|000000 [14,6]"⟩,
   ⟨4, [0xff, 0x00], 14, b!"|11111111|00000011|11111100|0000 [28,4]"⟩,
   ⟨6, [0xff, 0x00], 14, b!"|11111111|00000011|11111100|00001111|11110000|00 [42,2]"⟩,
   ⟨7, [0xff, 0x00], 14, b!"|11111111|00000011|11111100|00001111|11110000|00111111|11000000 [56,0]"⟩,
   ⟨9, [0xff, 0x00], 14, b!"|11111111|00000011|11111100|00001111|11110000|00111111|11000000|11111111|000000 [70,6]"⟩]

example : (∀ test ∈ shipped115, Legal115 test) ∧ Right115 [] shipped115 ∧ wrongBytes115 0 shipped115 = 0 := by
  refine ⟨fun test h => ?_, by decide +kernel, by decide +kernel⟩
  simp only [shipped115, List.mem_cons, List.not_mem_nil, or_false] at h
  rcases h with rfl | rfl | rfl | rfl | rfl <;> exact ⟨by decide, by decide⟩

/-! ### The test of the Huffman coder -/

/-- Encode and decode with an end of string, with any limit behind the text. -/
theorem test_eof {W : Type} (ops : Huff.Weights W) (table : Huff.FreqTable) (hsyms : table.map (·.1) = List.range 257)
    (h : Coder) (hi : init ops Coder.fresh table = .ok h) (text : List Nat) (ht : ∀ c ∈ text, c < 256) (useLength : Bool)
    (delta : Int) (hd : 0 ≤ delta) (fuel : Nat) (hf : text.length < fuel) :
    testEncodeDecode h text true useLength delta fuel = .ok () := by
  obtain ⟨b1, e1, h1⟩ := C91_encode ops table hsyms h hi text ht true BB.empty ⟨[], 0⟩ holdsC_empty
  have hpos : 0 < (bitsFor h [256]).length := by
    obtain ⟨hl, -, -, t, d, -, h2⟩ := C90_code ops table hsyms h hi
    have hlt : 256 < (words h).length := by omega
    have := (h2 256 _ (List.getElem?_eq_getElem hlt)).1
    simpa [bitsFor, List.getElem?_eq_getElem hlt] using this
  have hn : b1.numBits = (bitsFor h text).length + (bitsFor h [256]).length := by
    rw [h1.num]; simp [Tape.write]
  obtain ⟨b2, e2, -⟩ := C91_eof ops table hsyms h hi text ht b1 _ h1 [] (by simp [Tape.write]) fuel hf
    (if useLength then (b1.numBits : Int) + delta else 0) (by
      cases useLength with
      | false => exact Or.inl (by simp)
      | true => right; rw [hn]; simp only [if_true]; push_cast; omega)
  simp only [testEncodeDecode, bind, Except.bind, e1, e2]
  rw [if_neg (by simp)]

/-- C116: the test program of the Huffman coder passes for every string of bytes that is not empty, with every coder made for
257 symbols; for the empty string it aborts, since without an end of string Decode does not accept a length of 0. -/
theorem C116 {W : Type} (ops : Huff.Weights W) (table : Huff.FreqTable) (hsyms : table.map (·.1) = List.range 257)
    (h : Coder) (hi : init ops Coder.fresh table = .ok h) (text : List Nat) (ht : ∀ c ∈ text, c < 256) (fuel : Nat)
    (hf : text.length < fuel) :
    testText h text fuel = if text = [] then .error .assertion else .ok () := by
  have e1 := test_eof ops table hsyms h hi text ht false 0 (by omega) fuel hf
  have e3 := test_eof ops table hsyms h hi text ht true 8 (by omega) fuel hf
  by_cases hne : text = []
  · subst hne
    rw [if_pos rfl]
    have e2 : testEncodeDecode h [] false true 0 fuel = .error .assertion := by rfl
    simp only [testText, bind, Except.bind, e1, e2]
  · rw [if_neg hne]
    obtain ⟨b1, b2, d1, d2⟩ := (C91_roundtrip ops table hsyms h hi text ht BB.empty ⟨[], 0⟩ holdsC_empty fuel hf).2 hne
    obtain ⟨b1', d1', h1⟩ := C91_encode ops table hsyms h hi text ht false BB.empty ⟨[], 0⟩ holdsC_empty
    rw [d1] at d1'
    obtain rfl := Except.ok.inj d1'
    have hn : b1.numBits = (bitsFor h text).length := by rw [h1.num]; simp [Tape.write]
    have hs : seek b1 0 = b1 := by
      have h2 := h1.pos
      have h3 := h1.lt
      have h4 : b1.idxByte = 0 ∧ b1.idxBoff = 0 := by simp only [Tape.write] at h2; omega
      cases b1
      simp only at h4
      simp [seek, h4]
    have d2' : decodeC h b1 false ((b1.numBits : Int) + 0) fuel = .ok (b2, text) := by
      have : (⟨[], 0⟩ : Tape).bits.length = 0 := rfl
      rw [this, hs] at d2
      rw [hn, Int.add_zero]
      exact d2
    have e2 : testEncodeDecode h text false true 0 fuel = .ok () := by
      simp only [testEncodeDecode, bind, Except.bind, d1, if_true, d2']
      rw [if_neg (by simp)]
    simp only [testText, bind, Except.bind, e1, e2, e3]

example : ∃ h, init whole52 Coder.fresh requestTableC = .ok h := (C90_shipped requestTableC (Or.inl rfl)).2

end Verif.Props
