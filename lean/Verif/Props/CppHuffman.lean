import Verif.Cpp.Text
import Verif.Cpp.Tables
import Verif.Huff.Shipped
/-
C90 to C93: the Huffman coder of delta/huffman.h.
-/
namespace Verif.Props
open Verif Verif.Huff Verif.Huff.Spec Verif.Cpp
open Verif.Bits.Spec (Tape bitsOf natBits byteBits pack padZeros toNat)

/-- The bit strings in the code table of an object. -/
def words (h : Coder) : List (List Bool) := h.codes.map fun e => (bitsOf e.vec).take e.len

/-- The bits of a text. -/
def bitsFor (h : Coder) (text : List Nat) : List Bool := text.flatMap fun c => ((words h)[c]?).getD []

private theorem entry_word (c : List Bool) : (bitsOf (entryOf c).vec).take (entryOf c).len = c := by
  simp only [entryOf, Bits.bits_pack, List.take_left]

private theorem words_eq {h : Coder} {codes : List (List Bool)} (ht : h.codes = codes.map entryOf) : words h = codes := by
  simp only [words, ht, List.map_map, Function.comp_def, entry_word, List.map_id']

theorem coder_of {W : Type} {ops : Weights W} {table : FreqTable} (hsyms : table.map (·.1) = List.range 257) {h : Coder}
    (hi : init ops Coder.fresh table = .ok h) : IsCoder h (words h) := by
  obtain ⟨codes, t, d, -, -, -, hc⟩ := init_spec ops hsyms hi
  rw [words_eq hc.table]
  exact hc

/-! ### C90 -/

/-- C90: after Init of a new object, for any arithmetic on the weights: no code word is a prefix of another
one, they use up all bit strings, each is as long as its symbol is deep in the tree, which is at
most 32, and the table has each as bytes, as a length and shifted to the left of a word. -/
theorem C90_code {W : Type} (ops : Weights W) (table : FreqTable) (hsyms : table.map (·.1) = List.range 257) (h : Coder)
    (hi : init ops Coder.fresh table = .ok h) :
    (words h).length = 257 ∧ PrefixFree (words h) ∧ Complete (words h) ∧
    ∃ t d, buildTree ops table d = .ok t ∧ ∀ (i : Nat) (c : List Bool), (words h)[i]? = some c →
      0 < c.length ∧ c.length ≤ 32 ∧ AtDepth i t c.length ∧
      h.codes[i]? = some { vec := pack c, len := c.length, val := toNat c * 2 ^ (32 - c.length) } := by
  obtain ⟨codes, t, d, -, hb, ho, hc⟩ := init_spec ops hsyms hi
  rw [words_eq hc.table]
  refine ⟨hc.len, hc.free, hc.full, t, d, hb, fun i c hi => ⟨?_, ?_, ho.depth i c hi, ?_⟩⟩
  · exact List.length_pos_iff.2 (hc.nonempty c (List.mem_of_getElem? hi))
  · exact hc.short c (List.mem_of_getElem? hi)
  · rw [hc.table, List.getElem?_map, hi]
    rfl

/-- C90: DecodeFromWord, for every word of 32 bits: four lookups lead to the symbol whose code word the
word begins with, and none is outside the tables. -/
theorem C90_words {W : Type} (ops : Weights W) (table : FreqTable) (hsyms : table.map (·.1) = List.range 257) (h : Coder)
    (hi : init ops Coder.fresh table = .ok h) (w : Nat) (hw : w < 2 ^ 32) :
    ∃ i c, (words h)[i]? = some c ∧ c <+: natBits 32 w ∧ decodeFromWord h w = .ok (i, c.length) :=
  (coder_of hsyms hi).word w hw

/-- Weights without rounding, in units of `2 ** -52`: the count is divided as an integer, and DBL_EPSILON
stands for 0 (huffman.h 150-155). -/
def whole52 : Weights Nat where
  add := (· + ·)
  le a b := decide (a ≤ b)
  ofFreq f d := .ok (if f / d = 0 then 1 else 2 ^ 52 * (f / d))

/-- What the kernel checks of a tree: the depth of a symbol. -/
def depthIs (s n : Nat) (t : Py (Huff.Tree Nat)) : Bool :=
  match t with
  | .error _ => false
  | .ok t => (t.leaves 0).all fun p => p.2 != s || p.1 == n

private theorem depthIs_spec {s n : Nat} {t : Huff.Tree Nat} {p : Py (Huff.Tree Nat)} (hd : depthIs s n p = true) (hp : p = .ok t) {m : Nat}
    (ha : AtDepth s t m) : m = n := by
  subst hp
  have := List.all_eq_true.1 hd _ ((Tree.mem_leaves t 0 m s).2 ⟨m, by omega, ha⟩)
  simpa using this

private theorem shipped_depth (table : FreqTable) (ht : table = requestTableC ∨ table = responseTableC) :
    depthIs 88 8 (retry whole52 table 33 1) = true := by
  rcases ht with rfl | rfl
  · decide +kernel
  · decide +kernel

/-- C90: Init succeeds on the tables that are shipped (weights without rounding). -/
theorem C90_shipped (table : FreqTable) (ht : table = requestTableC ∨ table = responseTableC) :
    table.map (·.1) = List.range 257 ∧ ∃ h, init whole52 Coder.fresh table = .ok h := by
  have hs : table.map (·.1) = List.range 257 := by
    rcases ht with rfl | rfl
    · decide +kernel
    · decide +kernel
  refine ⟨hs, ?_⟩
  have hr := shipped_depth table ht
  cases h : retry whole52 table 33 1 with
  | error e => rw [h] at hr; cases hr
  | ok t => exact init_ok whole52 hs h

example : ((retry whole52 requestTableC 33 1).map Tree.depth).toOption = some 23 := by decide +kernel

/-! ### C91 -/

private theorem drop_bytes {b : BB} {t : Tape} (hb : HoldsC b t) {p : Nat} {x r : List Bool} (hx : x ≠ [])
    (h : t.bits.drop p = x ++ r) : (bitsOf b.bsa).drop p = x ++ (r ++ padZeros t.bits.length) := by
  have hlt : p < t.bits.length := by
    by_contra hc
    rw [List.drop_of_length_le (by omega)] at h
    exact hx (List.append_eq_nil_iff.1 h.symm).1
  rw [hb.content, List.drop_append_of_le_length (by omega), h, List.append_assoc]

private theorem start_pos {b : BB} {t : Tape} (hb : HoldsC b t) : bitsConsumed b = t.pos := by
  have := hb.pos
  unfold bitsConsumed
  omega

private theorem bits_ne {h : Coder} (hc : IsCoder h (words h)) {s : Nat} (hs : s < 257) : bitsFor h [s] ≠ [] := by
  have hlt : s < (words h).length := by rw [hc.len]; exact hs
  have : bitsFor h [s] = (words h)[s] := by simp [bitsFor, List.getElem?_eq_getElem hlt]
  rw [this]
  exact hc.nonempty _ (List.getElem_mem hlt)

variable {W : Type} (ops : Weights W) (table : FreqTable) (hsyms : table.map (·.1) = List.range 257) (h : Coder)
  (hi : init ops Coder.fresh table = .ok h)
include hsyms hi

/-- C91: Encode appends the code words of the bytes, and that of the end of string if asked to, to a
bucket with any content. -/
theorem C91_encode (text : List Nat) (ht : ∀ c ∈ text, c < 256) (eof : Bool) (b : BB) (t : Tape) (hb : HoldsC b t) :
    ∃ b', encodeC h b text eof = .ok b' ∧ HoldsC b' (t.write (bitsFor h text ++ if eof then bitsFor h [256] else [])) :=
  encodeC_spec (coder_of hsyms hi) text (fun c hc => by have := ht c hc; omega) eof hb

/-- C91: Decode up to the end of string delivers the text, from any position and whatever follows.  It leaves the
position 32 bits behind the beginning of the end of string, not behind its end. -/
theorem C91_eof (text : List Nat) (ht : ∀ c ∈ text, c < 256) (b : BB) (t : Tape) (hb : HoldsC b t) (r : List Bool)
    (hr : t.bits.drop t.pos = bitsFor h text ++ bitsFor h [256] ++ r) (fuel : Nat) (hf : text.length < fuel)
    (limit : Int) (hl : limit ≤ 0 ∨ ((bitsFor h text).length : Int) < limit) :
    ∃ b', decodeC h b true limit fuel = .ok (b', text) ∧
      HoldsC b' { t with pos := t.pos + (bitsFor h text).length + 32 } := by
  have hc := coder_of hsyms hi
  have hne := bits_ne hc (s := 256) (by norm_num)
  have hd := drop_bytes hb (x := bitsFor h text ++ bitsFor h [256]) (by simp [hne]) hr
  have hready := ready_start b hb.lt
  rw [start_pos hb] at hready
  refine ⟨_, ?_, holdsC_seek hb _⟩
  unfold decodeC
  by_cases h0 : limit ≤ 0
  · rw [if_pos ⟨rfl, h0⟩]
    exact decodeEof_spec hc text ht fuel b 0 32 t.pos [] _ hf hready hd
  · rw [if_neg (by rintro ⟨_, h1⟩; exact h0 h1), if_pos rfl]
    exact decodeBits_eof hc text fuel b 0 32 t.pos limit [] _ ht hf hready hd (hl.resolve_left h0)

/-- C91: Decode limited by bits delivers the symbols that begin within the limit, from any position and
whatever follows; without the end of string as a limit that symbol comes out as NUL.  It leaves the position 32
bits behind the beginning of the last symbol. -/
theorem C91_bits (text : List Nat) (last : Nat) (ht : ∀ c ∈ text ++ [last], c ≤ 256) (eof : Bool)
    (he : eof = true → 256 ∉ text ++ [last]) (b : BB) (t : Tape) (hb : HoldsC b t) (r : List Bool)
    (hr : t.bits.drop t.pos = bitsFor h (text ++ [last]) ++ r) (fuel : Nat) (hf : text.length < fuel) (limit : Int)
    (h1 : ((bitsFor h text).length : Int) < limit) (h2 : limit ≤ (bitsFor h (text ++ [last])).length) :
    ∃ b', decodeC h b eof limit fuel = .ok (b', (text ++ [last]).map fun c => if c = 256 then 0 else c) ∧
      HoldsC b' { t with pos := t.pos + (bitsFor h text).length + 32 } := by
  have hc := coder_of hsyms hi
  have hne : bitsFor h (text ++ [last]) ≠ [] := by
    have := bits_ne hc (s := last) (by have := ht last (by simp); omega)
    intro e
    rw [show bitsFor h (text ++ [last]) = bitsFor h text ++ bitsFor h [last] from textBits_append _ _ _] at e
    exact this (List.append_eq_nil_iff.1 e).2
  have hd := drop_bytes hb hne hr
  have hready := ready_start b hb.lt
  rw [start_pos hb] at hready
  refine ⟨_, ?_, holdsC_seek hb _⟩
  have hm : (text ++ [last]).map (fun c => if c = 256 then 0 else c) = (text ++ [last]).map (· % 256) := by
    refine List.map_congr_left fun c hcm => ?_
    have := ht c hcm
    split
    · subst c; rfl
    · rw [Nat.mod_eq_of_lt (by omega)]
  rw [hm]
  have key := decodeBits_spec hc eof text last fuel b 0 32 t.pos limit [] _
    (fun c hcm => ⟨by have := ht c hcm; omega, fun e hx => he e (hx ▸ hcm)⟩) hf hready hd h1 h2
  unfold decodeC
  have h0 : limit > 0 := by omega
  cases eof with
  | true => rw [if_neg (by rintro ⟨_, hx⟩; omega), if_pos rfl]; exact key
  | false => rw [if_neg (by rintro ⟨hx, _⟩; cases hx), if_neg (by simp), if_pos h0]; exact key

/-- C91: what Encode appends to a bucket with any content is delivered by Decode from where it begins. -/
theorem C91_roundtrip (text : List Nat) (ht : ∀ c ∈ text, c < 256) (b : BB) (t : Tape) (hb : HoldsC b t) (fuel : Nat)
    (hf : text.length < fuel) :
    (∃ b1 b2, encodeC h b text true = .ok b1 ∧ decodeC h (seek b1 t.bits.length) true 0 fuel = .ok (b2, text)) ∧
    (text ≠ [] → ∃ b1 b2, encodeC h b text false = .ok b1 ∧
      decodeC h (seek b1 t.bits.length) false (bitsFor h text).length fuel = .ok (b2, text)) := by
  constructor
  · obtain ⟨b1, e1, h1⟩ := C91_encode ops table hsyms h hi text ht true b t hb
    obtain ⟨b2, e2, -⟩ := C91_eof ops table hsyms h hi text ht _ _ (holdsC_seek h1 t.bits.length) []
      (by simp [Tape.write]) fuel hf 0 (.inl le_rfl)
    exact ⟨b1, b2, e1, e2⟩
  · intro hne
    obtain ⟨b1, e1, h1⟩ := C91_encode ops table hsyms h hi text ht false b t hb
    obtain ⟨l, x, rfl⟩ : ∃ l x, text = l ++ [x] := ⟨_, _, (List.dropLast_append_getLast hne).symm⟩
    have hpos : 0 < (bitsFor h [x]).length :=
      List.length_pos_iff.2 (bits_ne (coder_of hsyms hi) (by have := ht x (by simp); omega))
    have hsplit : (bitsFor h (l ++ [x])).length = (bitsFor h l).length + (bitsFor h [x]).length := by
      rw [← List.length_append]
      exact congrArg List.length (textBits_append _ _ _)
    obtain ⟨b2, e2, -⟩ := C91_bits ops table hsyms h hi l x (fun c hc => by have := ht c hc; omega) false (by simp)
      _ _ (holdsC_seek h1 t.bits.length) [] (by simp [Tape.write]) fuel (by simp at hf; omega)
      (bitsFor h (l ++ [x])).length (by rw [hsplit]; push_cast; omega) le_rfl
    refine ⟨b1, b2, e1, ?_⟩
    rw [e2]
    congr 2
    conv_rhs => rw [← List.map_id (l ++ [x])]
    refine List.map_congr_left fun c hc => ?_
    have := ht c hc
    rw [if_neg (by omega)]
    rfl

/-- C91: limited by bits, Decode ends on any bits, whatever was written and wherever the position is. -/
theorem C91_total (eof : Bool) (b : BB) (t : Tape) (hb : HoldsC b t) (limit : Int) (h0 : 0 < limit) (fuel : Nat) (hf : limit ≤ fuel) :
    ∃ b' out p, decodeC h b eof limit fuel = .ok (b', out) ∧ HoldsC b' { t with pos := p } := by
  have hc := coder_of hsyms hi
  obtain ⟨p, out, e⟩ := decodeBits_total hc eof fuel b 0 32 (bitsConsumed b) limit [] hf (ready_start b hb.lt)
  refine ⟨seek b p, out, p, ?_, holdsC_seek hb p⟩
  unfold decodeC
  cases eof with
  | true => rw [if_neg (by rintro ⟨_, hx⟩; omega), if_pos rfl]; exact e
  | false => rw [if_neg (by rintro ⟨hx, _⟩; cases hx), if_neg (by simp), if_pos h0]; exact e

/-- A text that was written without an end of string is never decoded to an end of string: zeros are read for
ever behind the last byte, and Decode appends to its output for ever. -/
theorem C91_open_false (hz : true ∈ bitsFor h [256]) (text : List Nat) (ht : ∀ c ∈ text, c < 256) (b : BB) (t : Tape) (hb : HoldsC b t)
    (hr : t.bits.drop t.pos = bitsFor h text) (fuel : Nat) : decodeC h b true 0 fuel = .error .outOfFuel := by
  have hc := coder_of hsyms hi
  have hready := ready_start b hb.lt
  rw [start_pos hb] at hready
  unfold decodeC
  rw [if_pos ⟨rfl, le_rfl⟩]
  have hpad : ∀ x ∈ padZeros t.bits.length, x = false := fun x hx => (List.mem_replicate.1 hx).2
  by_cases he : bitsFor h text = []
  · refine decodeEof_zeros hc hz fuel b 0 32 t.pos [] hready fun x hx => ?_
    rw [he] at hr
    rw [hb.content, List.drop_append, hr, List.nil_append] at hx
    exact hpad x (List.mem_of_mem_drop hx)
  · have hd := drop_bytes hb (x := bitsFor h text) (r := []) he (by simpa using hr)
    exact decodeEof_open hc hz text ht fuel b 0 32 t.pos [] _ hready hd (by simpa using hpad)

/-- Two strings in a row cannot be read one after the other: the second Decode begins behind the 32 bits, and
if no more than these are left, it never ends. -/
theorem C91_next_false (hz : true ∈ bitsFor h [256]) (text text' : List Nat) (ht : ∀ c ∈ text, c < 256) (ht' : ∀ c ∈ text', c < 256)
    (hshort : (bitsFor h [256]).length + (bitsFor h text').length + (bitsFor h [256]).length ≤ 32) (fuel fuel' : Nat)
    (hf : text.length < fuel) :
    ∃ b1 b2 b3, encodeC h BB.empty text true = .ok b1 ∧ encodeC h b1 text' true = .ok b2 ∧
      decodeC h b2 true 0 fuel = .ok (b3, text) ∧ decodeC h b3 true 0 fuel' = .error .outOfFuel := by
  obtain ⟨b1, e1, h1⟩ := C91_encode ops table hsyms h hi text ht true _ _ holdsC_empty
  obtain ⟨b2, e2, h2⟩ := C91_encode ops table hsyms h hi text' ht' true _ _ h1
  obtain ⟨b3, e3, h3⟩ := C91_eof ops table hsyms h hi text ht _ _ h2 (bitsFor h text' ++ bitsFor h [256])
    (by simp [Tape.write]) fuel hf 0 (.inl le_rfl)
  refine ⟨b1, b2, b3, e1, e2, e3, ?_⟩
  refine C91_open_false ops table hsyms h hi hz [] (by simp) b3 _ h3 ?_ fuel'
  simp only [Tape.write, if_true, bitsFor, List.flatMap_nil]
  refine List.drop_of_length_le ?_
  simp only [bitsFor] at hshort
  simp only [List.nil_append, List.length_append]
  omega

omit hsyms hi

/-- Decode without any limit aborts: the empty string has no bits, and can only be sent with an end of string. -/
theorem C91_abort (h : Coder) (b : BB) (limit : Int) (hl : limit ≤ 0) (fuel : Nat) : decodeC h b false limit fuel = .error .assertion := by
  unfold decodeC
  rw [if_neg (by simp), if_neg (by simp), if_neg (by omega)]

/-! ### C92 -/

/-- C92: from the same table, the same divisor and the same arithmetic on the weights the C++ program and
huffman.py build the same tree, and from it the same code words (dictionaries in ascending order on the side of Python).

Missing: the tables that are shipped are not the same, see `C92_tables_false`. -/
theorem C92_same_partial (ord : Dict Nat (List Nat) → List (Nat × List Nat)) (d : Nat) (t : Huff.Tree W)
    (hsyms : (table.map (·.1)).Perm (List.range 257)) (ht : buildTree ops table d = .ok t) (hd : t.depth ≤ 32)
    (hord : ∀ m, discover t.size [(t, 0)] [] = .ok m → (ord m).Perm m ∧ (ord m).Pairwise fun a b => a.1 < b.1) :
    buildCodeTree ops table d = .ok t ∧
    ∃ codes, canonicalC t Coder.fresh.codes = .ok codes ∧ canonicalTable ord t = .ok (codes.map fun e => (e.vec, e.len)) := by
  obtain ⟨h1, hs, hdo, hn⟩ := buildTree_spec ops ht
  exact ⟨h1, same_code ord t 257 (by norm_num) hn (hs.trans hsyms) (by rw [← Tree.depth_eq hdo]; exact hd) _ List.length_replicate hord⟩

example : (buildTree whole52 requestTableC 1).isOk = true := by decide +kernel

/-- The tables that are shipped are not the same, and so are not the codes: in the C++ program `X` has 8 bits, in huffman.py, with any of
its four tables, 9 or 10. -/
theorem C92_tables_false (tableC tableP : FreqTable) (hC : tableC = requestTableC ∨ tableC = responseTableC)
    (hP : tableP = requestTable ∨ tableP = responseTable ∨ tableP = oldRequestTable ∨ tableP = oldResponseTable)
    (hc : Coder) (hp : Huff.Huffman) (hic : init whole52 Coder.fresh tableC = .ok hc) (hip : huffman exact cpyOrder tableP = .ok hp) :
    ∃ e c, hc.codes[88]? = some e ∧ hp.codeTable[88]? = some c ∧ e.len = 8 ∧ (c.2 = 9 ∨ c.2 = 10) := by
  obtain ⟨codes, t, d, hr, -, ho, hcod⟩ := init_spec whole52 (C90_shipped tableC hC).1 hic
  obtain ⟨x, hx⟩ : ∃ x, codes[88]? = some x := ⟨_, List.getElem?_eq_getElem (by rw [hcod.len]; norm_num)⟩
  have hx8 := depthIs_spec (shipped_depth tableC hC) hr (ho.depth 88 x hx)
  have hok : tableOk tableP = true := by
    rcases hP with rfl | rfl | rfl | rfl
    · exact request_ok
    · exact response_ok
    · exact oldRequest_ok
    · exact oldResponse_ok
  obtain ⟨hs, u, hu, hd, hasc⟩ := tableOk_spec hok
  obtain ⟨hsy, hdo, hn⟩ := buildCodeTree_spec whole hu
  rw [hs] at hsy
  obtain ⟨hp', codes', e', hc', ho'⟩ := buildCodeTable_spec cpyOrder u 257 hn hsy hasc
  rw [huffman_exact cpyOrder hu, if_pos hd, e', Except.ok.injEq] at hip
  subst hip
  obtain ⟨y, hy⟩ : ∃ y, codes'[88]? = some y := ⟨_, List.getElem?_eq_getElem (by rw [ho'.len]; norm_num)⟩
  have h9 : depthIs 88 9 (buildCodeTree whole tableP 1) = true ∨ depthIs 88 10 (buildCodeTree whole tableP 1) = true := by
    rcases hP with rfl | rfl | rfl | rfl
    · exact .inl (by decide +kernel)
    · exact .inr (by decide +kernel)
    · exact .inl (by decide +kernel)
    · exact .inl (by decide +kernel)
  refine ⟨entryOf x, (pack y, y.length), by rw [hcod.table, List.getElem?_map, hx]; rfl,
    by rw [hc'.table, List.getElem?_map, hy]; rfl, hx8, ?_⟩
  rcases h9 with h9 | h9
  · exact .inl (depthIs_spec h9 hu (ho'.depth 88 y hy))
  · exact .inr (depthIs_spec h9 hu (ho'.depth 88 y hy))

/-! ### C93 -/

/-- C93: Init on an object used before makes the code words anew, but the tables for decoding are only appended to: for every word
DecodeFromWord finds the symbol by the code words of the first table and the number of bits by those of the second. -/
theorem C93_again {V : Type} (hsyms : table.map (·.1) = List.range 257) (hi : init ops Coder.fresh table = .ok h)
    (ops' : Weights V) (table' : FreqTable) (hsyms' : table'.map (·.1) = List.range 257) (h' : Coder) (hi' : init ops' h table' = .ok h')
    (w : Nat) (hw : w < 2 ^ 32) :
    ∃ i c c', (words h)[i]? = some c ∧ c <+: natBits 32 w ∧ (words h')[i]? = some c' ∧ decodeFromWord h' w = .ok (i, c'.length) := by
  obtain ⟨codes', t, d, -, -, -, htab, hw'⟩ := init_again ops' (coder_of hsyms hi) hsyms' hi'
  rw [words_eq htab]
  exact hw' w hw

private theorem prefix_short {c d : List Bool} (hc : ∀ y : Bool, d <+: c ++ List.replicate 32 y) : d <+: c := by
  by_contra hn
  have hlen : c.length < d.length := by
    by_contra hl
    exact hn (List.prefix_of_prefix_length_le (hc true) (List.prefix_append _ _) (by omega))
  have get : ∀ y : Bool, d[c.length]? = some y := by
    intro y
    obtain ⟨r, hr⟩ := hc y
    have h1 : (d ++ r)[c.length]? = d[c.length]? := List.getElem?_append_left hlen
    rw [← h1, hr, List.getElem?_append_right le_rfl, Nat.sub_self]
    rfl
  have := (get true).symm.trans (get false)
  cases this

/-- C93: so the object decodes the words by its own code exactly if the second table leads to the same code words as the first. -/
theorem C93_iff {V : Type} (hsyms : table.map (·.1) = List.range 257) (hi : init ops Coder.fresh table = .ok h)
    (ops' : Weights V) (table' : FreqTable) (hsyms' : table'.map (·.1) = List.range 257) (h' : Coder) (hi' : init ops' h table' = .ok h') :
    (∀ w < 2 ^ 32, ∃ i c, (words h')[i]? = some c ∧ c <+: natBits 32 w ∧ decodeFromWord h' w = .ok (i, c.length)) ↔
      words h' = words h := by
  have hc := coder_of hsyms hi
  obtain ⟨codes', t, d, -, ho, h32, htab, -⟩ := init_again ops' hc hsyms' hi'
  have hw := words_eq htab
  have key := C93_again ops table h hsyms hi ops' table' hsyms' h' hi'
  rw [hw] at key ⊢
  constructor
  · intro hall
    have back : ∀ x : List Bool, x.length = 32 → ∀ (i : Nat) (c c' : List Bool), (words h)[i]? = some c → codes'[i]? = some c' → (c <+: x ↔ c' <+: x) := by
      intro x hx i c c' h1 h2
      have hlt : toNat x < 2 ^ 32 := by rw [← hx]; exact Bits.toNat_lt x
      obtain ⟨j, a, a', k1, k2, k3, k4⟩ := key (toNat x) hlt
      obtain ⟨j', b, m1, m2, m3⟩ := hall (toNat x) hlt
      rw [k4] at m3
      simp only [Except.ok.injEq, Prod.mk.injEq] at m3
      obtain ⟨rfl, -⟩ := m3
      rw [Bits.natBits_toNat _ _ hx] at k2 m2
      rw [k3] at m1
      cases m1
      constructor
      · intro hp
        have : j = i := by
          rcases List.prefix_or_prefix_of_prefix k2 hp with h | h
          · exact hc.free _ _ _ _ k1 h1 h
          · exact (hc.free _ _ _ _ h1 k1 h).symm
        subst this
        rw [k3] at h2
        cases h2
        exact m2
      · intro hp
        have : j = i := by
          rcases List.prefix_or_prefix_of_prefix m2 hp with h | h
          · exact ho.free _ _ _ _ k3 h2 h
          · exact (ho.free _ _ _ _ h2 k3 h).symm
        subst this
        rw [k1] at h1
        cases h1
        exact k2
    refine List.ext_getElem? fun i => ?_
    by_cases hlt : i < 257
    · obtain ⟨c, h1⟩ : ∃ c, (words h)[i]? = some c := ⟨_, List.getElem?_eq_getElem (by rw [hc.len]; exact hlt)⟩
      obtain ⟨c', h2⟩ : ∃ c, codes'[i]? = some c := ⟨_, List.getElem?_eq_getElem (by rw [ho.len]; exact hlt)⟩
      have l1 := hc.short c (List.mem_of_getElem? h1)
      have l2 := h32 c' (List.mem_of_getElem? h2)
      have pad : ∀ {a b : List Bool}, a.length ≤ 32 → (∀ x : List Bool, x.length = 32 → (a <+: x → b <+: x)) → b <+: a := by
        intro a b ha hx
        refine prefix_short fun y => ?_
        have := hx ((a ++ List.replicate 32 y).take 32) (by simp) (by
          rw [List.take_append, List.take_of_length_le ha]
          exact List.prefix_append _ _)
        exact this.trans (List.take_prefix _ _)
      rw [h1, h2]
      congr 1
      have p1 := pad l1 fun x hx => (back x hx i c c' h1 h2).1
      have p2 := pad l2 fun x hx => (back x hx i c c' h1 h2).2
      exact List.IsPrefix.eq_of_length p1 (le_antisymm p1.length_le p2.length_le)
    · rw [List.getElem?_eq_none (by rw [ho.len]; omega), List.getElem?_eq_none (by rw [hc.len]; omega)]
  · intro he w hlt
    obtain ⟨i, c, c', k1, k2, k3, k4⟩ := key w hlt
    rw [he, k1] at k3
    cases k3
    exact ⟨i, c, by rw [he]; exact k1, k2, k4⟩

end Verif.Props
