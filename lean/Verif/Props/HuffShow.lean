import Verif.Delta1.Decode
import Verif.Delta1.HuffLemmas
import Verif.Huff.Code
import Verif.Props.BitsShow
import Verif.Props.Stats
/-
Properties C120 and C121: delta's slow Decode, the printed code table, and the test programs of the Python Huffman coders.
-/
namespace Verif.Props
open Verif Verif.Bits Verif.Huff Bits.Spec Huff.Spec
open Verif.Stats (dec rjust)
open Verif.Delta1 (textWalk textLoop test1 test2 listToStr tableLines formatCodeTable readableCode)

/-! ### Decode -/

theorem bit_of (v : List Nat) (i o c : Nat) (h : v[i]? = some c) (ho : o < 8) :
    (bitsOf v)[8 * i + o]? = some (c.testBit (7 - o)) := by
  obtain ⟨hi, rfl⟩ := List.getElem?_eq_some_iff.mp h
  have e := congrArg (fun l : List Bool => l[0]?) (Cpp.bits_at v i o hi ho)
  simp only [List.getElem?_drop, Nat.add_zero] at e
  rw [e, List.getElem?_append_left (by simp [byteBits, natBits]; omega), List.getElem?_drop, Nat.add_zero, byteBits,
    natBits_get 8 _ o ho]

theorem textWalk_ok (text : List Nat) : ∀ (t : DTree) (code : List Bool) (sym chr bit : Nat) (rest : List Bool),
    Leads t code sym → bit < 8 → (bitsOf text).drop (8 * chr + bit) = code ++ rest →
    ∃ chr' bit', textWalk text t chr bit = .ok (sym, chr', bit', code.length) ∧ bit' < 8 ∧
      8 * chr' + bit' = 8 * chr + bit + code.length := by
  intro t
  induction t with
  | empty => intro code sym chr bit rest h; exact absurd h (leads_empty _ _)
  | leaf s =>
    intro code sym chr bit rest h hb hd
    cases code with
    | nil =>
      have h : s = sym := h
      subst h
      exact ⟨chr, bit, rfl, hb, rfl⟩
    | cons b c => exact absurd h (by intro h; exact h)
  | node l r ihl ihr =>
    intro code sym chr bit rest h hb hd
    cases code with
    | nil => exact absurd h (by intro h; exact h)
    | cons b code =>
      have hlen := congrArg List.length hd
      simp only [List.length_drop, bitsOf_length, List.length_append, List.length_cons] at hlen
      have hi : chr < text.length := by omega
      have hget : text[chr]? = some text[chr] := List.getElem?_eq_getElem hi
      have h0 := congrArg (fun l : List Bool => l[0]?) hd
      simp only [List.getElem?_drop, Nat.add_zero, List.cons_append, List.getElem?_cons_zero] at h0
      rw [bit_of text chr bit _ hget hb, Option.some.injEq] at h0
      have hd' : (bitsOf text).drop (8 * chr + bit + 1) = code ++ rest := by
        rw [← List.drop_drop, hd]; rfl
      have hpos : 8 * (if bit + 1 ≥ 8 then chr + 1 else chr) + (if bit + 1 ≥ 8 then 0 else bit + 1) = 8 * chr + bit + 1 := by
        split <;> omega
      have hlt : (if bit + 1 ≥ 8 then 0 else bit + 1) < 8 := by split <;> omega
      have hbit : ((text[chr] >>> (7 - bit)) &&& 1 = 0) ↔ b = false := by
        have hs := shift_bit text[chr] (7 - bit)
        rw [h0] at hs
        cases b <;> simp at hs ⊢ <;> omega
      generalize hc' : (if bit + 1 ≥ 8 then chr + 1 else chr) = chr1 at *
      generalize hb' : (if bit + 1 ≥ 8 then 0 else bit + 1) = bit1 at *
      rw [← hpos] at hd'
      cases b with
      | false =>
        obtain ⟨chr', bit', e, h1, h2⟩ := ihl code sym chr1 bit1 rest h hlt hd'
        refine ⟨chr', bit', ?_, h1, by simp only [List.length_cons]; omega⟩
        simp only [textWalk, at?, hget, bind, Except.bind, hc', hb', if_pos (hbit.mpr rfl), e, Except.map, List.length_cons]
      | true =>
        obtain ⟨chr', bit', e, h1, h2⟩ := ihr code sym chr1 bit1 rest h hlt hd'
        refine ⟨chr', bit', ?_, h1, by simp only [List.length_cons]; omega⟩
        simp only [textWalk, at?, hget, bind, Except.bind, hc', hb', if_neg (fun hx => Bool.noConfusion (hbit.mp hx)), e,
          Except.map, List.length_cons]

theorem textLoop_ok {h : Huffman} {codes : List (List Bool)} (hc : Codes h codes) (text : List Nat) :
    ∀ (syms : List Nat) (chr bit fuel : Nat) (out : List Nat) (rest : List Bool), (∀ c ∈ syms, c < codes.length) → bit < 8 →
    (bitsOf text).drop (8 * chr + bit) = textBits codes syms ++ rest → (textBits codes syms).length ≤ fuel →
    textLoop text h.tree false ((8 * chr + bit + (textBits codes syms).length : Nat) : Int) fuel chr bit (8 * chr + bit) out =
      .ok (out ++ syms) := by
  intro syms
  induction syms with
  | nil =>
    intro chr bit fuel out rest hs hb hd hf
    cases fuel <;> rw [textLoop, if_neg (by simp [textBits])] <;> simp
  | cons c syms ih =>
    intro chr bit fuel out rest hs hb hd hf
    have hlt : c < codes.length := hs c (by simp)
    have hp := code_pos hc hlt
    simp only [textBits_cons, List.append_assoc, List.length_append] at hd hf ⊢
    cases fuel with
    | zero => omega
    | succ fuel =>
      obtain ⟨chr', bit', e, h1, h2⟩ := textWalk_ok text h.tree _ c chr bit _ (hc.leads c _ (codes_get hlt)) hb hd
      have hd' : (bitsOf text).drop (8 * chr' + bit') = textBits codes syms ++ rest := by
        rw [h2, ← List.drop_drop, hd, List.drop_left]
      have e2 := ih chr' bit' fuel (out ++ [c]) rest (fun x hx => hs x (by simp [hx])) h1 hd' (by omega)
      rw [textLoop, if_pos (by omega)]
      simp only [e, bind, Except.bind, Bool.false_eq_true, if_false]
      rw [h2] at e2
      rw [← Nat.add_assoc, e2]
      simp

/-- C120: without an end of string, Decode gives back every text that was encoded, of any symbols of any code table. -/
theorem C120_decode (table : FreqTable) (n : Nat) (h2 : 2 ≤ n) (hs : (table.map (·.1)).Perm (List.range n)) (text : List Nat)
    (ht : ∀ c ∈ text, c < n) :
    ∃ h bytes k, Delta1.huffman table = .ok h ∧ encode h text false = .ok (bytes, k) ∧
      Delta1.decode h bytes false k = .ok text := by
  obtain ⟨t, h, codes, -, e, hc, ho⟩ := Delta1.huffman_spec table n h2 hs
  have htc : ∀ c ∈ text, c < codes.length := by rw [ho.len]; exact ht
  have e1 := encode_spec hc text htc false (by simp)
  simp only [Bool.false_eq_true, if_false, List.append_nil] at e1
  refine ⟨h, _, _, e, e1, ?_⟩
  by_cases hz : text = []
  · subst hz; simp [textBits, pack, Delta1.decode]
  have hpos : 0 < (textBits codes text).length := by
    obtain ⟨c, cs, rfl⟩ := List.exists_cons_of_ne_nil hz
    rw [textBits_cons, List.length_append]
    have := code_pos hc (htc c (by simp))
    omega
  have hb := bits_pack (textBits codes text)
  have hne : pack (textBits codes text) ≠ [] := by
    intro h0
    rw [h0] at hb
    have := congrArg List.length hb
    simp [bitsOf] at this
    omega
  have hl := congrArg List.length hb
  simp only [bitsOf_length, List.length_append] at hl
  have := textLoop_ok hc (pack (textBits codes text)) text 0 0 (8 * (pack (textBits codes text)).length + 1) [] _ htc (by omega)
    (by simpa using hb) (by omega)
  rw [Delta1.decode, if_neg hne]
  simp only [Nat.mul_zero, Nat.zero_add, Nat.add_zero, List.nil_append] at this
  rw [if_neg (by omega), this]

/-- C120 is false with an end of string: then Decode always raises, since it computes `ord` of a number. -/
theorem C120_false (table : FreqTable) (hs : (table.map (·.1)).Perm (List.range 257)) (text : List Nat)
    (ht : ∀ c ∈ text, c < 256) (want : Int) :
    ∃ h bytes k, Delta1.huffman table = .ok h ∧ encode h text true = .ok (bytes, k) ∧
      Delta1.decode h bytes true want = .error .type := by
  obtain ⟨t, h, codes, -, e, hc, ho⟩ := Delta1.huffman_spec table 257 (by omega) hs
  have htc : ∀ c ∈ text, c < codes.length := fun c hx => by have := ht c hx; rw [ho.len]; omega
  have e1 := encode_spec hc text htc true (fun _ => by rw [ho.len]; omega)
  simp only [if_true] at e1
  refine ⟨h, _, _, e, e1, ?_⟩
  obtain ⟨c, cs, hcs, hlt⟩ : ∃ c cs, text ++ [256] = c :: cs ∧ c < codes.length := by
    cases text with
    | nil => exact ⟨256, [], rfl, by rw [ho.len]; omega⟩
    | cons c cs => exact ⟨c, cs ++ [256], rfl, htc c (by simp)⟩
  rw [hcs]
  have hp := code_pos hc hlt
  have hb := bits_pack (textBits codes (c :: cs))
  rw [textBits_cons] at hb ⊢
  have hl := congrArg List.length hb
  simp only [bitsOf_length, List.length_append] at hl
  generalize pack ((codes[c]?).getD [] ++ textBits codes cs) = bytes at *
  have hne : bytes ≠ [] := by
    rintro rfl
    simp only [List.length_nil] at hl
    omega
  obtain ⟨chr', bit', e2, -, -⟩ := textWalk_ok bytes h.tree _ c 0 0 (textBits codes cs ++ _)
    (hc.leads c _ (codes_get hlt)) (by omega) (by simpa using hb)
  rw [Delta1.decode, if_neg hne, textLoop, if_pos (by split <;> omega)]
  simp only [e2, bind, Except.bind, if_true]

/-- A table with three symbols. -/
def table120 : FreqTable := [(0, 5), (1, 2), (2, 1)]

example : (table120.map (·.1)).Perm (List.range 3) := by decide
example : (((List.range 257).map fun i => (i, i % 7)).map (·.1)).Perm (List.range 257) := by simp [Function.comp_def]
example : ((Delta1.huffman table120).bind fun h => (encode h [2, 0, 1, 0, 0, 2] false).bind fun e =>
    Delta1.decode h e.1 false e.2) = .ok [2, 0, 1, 0, 0, 2] := by decide +kernel

/-! ### The test programs -/

theorem listToStr_ok : ∀ (s : Str), (∀ c ∈ s, c < 256) → listToStr s = .ok s
  | [], _ => rfl
  | c :: s, h => by
    rw [listToStr, if_pos (h c (by simp)), listToStr_ok s (fun x hx => h x (by simp [hx]))]
    rfl

/-- C120: the test program of delta says that it worked for every string. -/
theorem C120_test1 (table : FreqTable) (n : Nat) (hn : 256 ≤ n) (hs : (table.map (·.1)).Perm (List.range n)) (s : Str)
    (hb : ∀ c ∈ s, c < 256) : ∃ h, Delta1.huffman table = .ok h ∧ test1 h s = .ok true := by
  obtain ⟨h, bytes, k, e1, e2, e3⟩ := C120_decode table n (by omega) hs s (fun c hc => by have := hb c hc; omega)
  refine ⟨h, e1, ?_⟩
  have hf : ∃ txt, formatAsBits bytes k = .ok txt := by
    obtain ⟨t, h', codes, -, e, hc, ho⟩ := Delta1.huffman_spec table n (by omega) hs
    rw [e1] at e
    cases e
    obtain ⟨bb, e4, hw⟩ := encodeToBB_spec hc s (fun c hx => by have := hb c hx; rw [ho.len]; omega) false (by simp) wrote_empty
    simp only [encode, bind, Except.bind, e4, pure, Except.pure, Except.ok.injEq, Prod.mk.injEq] at e2
    obtain ⟨rfl, rfl⟩ := e2
    have hr := hw.rep
    rw [hr.numBits, Int.toNat_natCast, C117_format _ hr.bytes, if_neg (take_shown hr _ rfl).2]
    exact ⟨_, rfl⟩
  obtain ⟨txt, hf⟩ := hf
  simp only [test1, e2, hf, e3, bind, Except.bind, listToStr_ok s hb, pure, Except.pure, decide_true]

/-- C120: the test program of delta2 says that it worked for every string, with every coder that can be made. -/
theorem C120_test2 {W : Type} (ops : Weights W) (ord : Dict Nat (List Nat) → List (Nat × List Nat))
    (table : FreqTable) (divisor : Nat) (hsyms : (table.map (·.1)).Perm (List.range 257)) (tree : Huff.Tree W)
    (ht : buildCodeTree ops table divisor = .ok tree)
    (hord : ∀ d, discover tree.size [(tree, 0)] [] = .ok d → (ord d).Perm d) (h : Huffman)
    (hh : buildCodeTable ord tree = .ok h) (s : Str) (hs : ∀ c ∈ s, c < 256) : test2 h s = .ok true := by
  obtain ⟨hsy, _, hn⟩ := buildCodeTree_spec ops ht
  obtain ⟨codes, hc, ho⟩ : ∃ codes, Codes h codes ∧ CodesOf tree 257 codes := by
    rcases buildCodeTable_total ord tree 257 hn (hsy.trans hsyms) hord with ⟨h', codes, e, hc, ho⟩ | e
    · rw [hh] at e
      cases e
      exact ⟨codes, hc, ho⟩
    · rw [hh] at e
      cases e
  have h256 : 256 < codes.length := by rw [ho.len]; omega
  obtain ⟨bb, e1, hw⟩ := encodeToBB_spec hc s (fun c hx => by have := hs c hx; omega) true (fun _ => h256) wrote_empty
  have hr := hw.rep
  obtain ⟨txt, hf⟩ : ∃ txt, formatAsBits bb.output (numBits bb).toNat = .ok txt := by
    rw [hr.numBits, Int.toNat_natCast, C117_format _ hr.bytes, if_neg (take_shown hr _ rfl).2]
    exact ⟨_, rfl⟩
  have ha : At bb [] (textBits codes (s ++ [256]) ++ []) := by
    have : [] ++ textBits codes s ++ (if true then textBits codes [256] else []) = textBits codes (s ++ [256]) := by
      simp [textBits]
    rw [this] at hw
    simpa [At, Wrote] using hw
  obtain ⟨bb', e2, -⟩ := decode_eof hc h256 s hs ha
  have e3 : decodeFromBB h bb true (-1) = decodeFromBB h bb true 0 := by
    simp [decodeFromBB]
  rw [e2] at e3
  simp only [test2, e1, hf, e3, bind, Except.bind, listToStr_ok s hs, pure, Except.pure, decide_true]

/-! ### C121: the printed table -/

/-- The line of a symbol. -/
def line121 (i : Nat) (code : List Bool) : Str :=
  readableCode i ++ b!" (" ++ rjust 3 (dec i) ++ b!"): " ++ barred114 0 (digits114 code) ++ b!" [" ++ dec code.length ++ b!"]"

theorem format_code (code : List Bool) :
    formatAsBits (pack code) code.length = .ok (barred114 0 (digits114 code) ++ b!" [" ++ dec code.length ++ b!"]") := by
  obtain ⟨b, e, hw⟩ := wrote_store wrote_empty code
  have hr := hw.rep
  obtain ⟨o1, o2⟩ := wrote_out hw
  simp only [List.nil_append] at hr o1 o2
  obtain ⟨h1, h2⟩ := take_shown hr code.length rfl
  rw [← o1, C117_format _ hr.bytes, if_neg h2, h1]

theorem tableLines_ok : ∀ (codes : List (List Bool)) (i : Nat),
    tableLines (codes.map fun c => (pack c, c.length)) i = .ok ((codes.zipIdx i).map fun x => line121 x.2 x.1)
  | [], _ => rfl
  | c :: codes, i => by
    simp only [List.map_cons, tableLines, format_code, tableLines_ok codes (i + 1), bind, Except.bind, List.zipIdx_cons, pure,
      Except.pure, line121, List.append_assoc]

theorem line121_chars (i : Nat) (code : List Bool) : 10 ∉ line121 i code := by
  have h1 : 10 ∉ readableCode i := by
    unfold readableCode
    split
    · exact rjust_chars _ _ (by simp; omega)
    · exact rjust_chars _ _ (by simp)
  have h2 : 10 ∉ barred114 0 (digits114 code) := by
    intro hc
    simp only [barred114, digits114, List.mem_flatMap] at hc
    obtain ⟨x, hx, hc⟩ := hc
    have hm : x.1 ∈ code.map fun b => if b then 49 else 48 := by
      obtain ⟨-, h2, h3⟩ := List.mem_zipIdx hx
      rw [h3]
      exact List.getElem_mem _
    obtain ⟨b, -, hb⟩ := List.mem_map.mp hm
    rw [← hb] at hc
    cases b <;> split at hc <;> simp at hc
  simp only [line121, List.mem_append, not_or]
  exact ⟨⟨⟨⟨⟨⟨⟨h1, by decide⟩, rjust_chars _ _ (dec_chars _)⟩, by decide⟩, h2⟩, by decide⟩, dec_chars _⟩, by decide⟩

theorem line121_inj {i : Nat} {c d : List Bool} (h : line121 i c = line121 i d) : c = d := by
  simp only [line121, List.append_assoc] at h
  have h := List.append_cancel_left h
  have h := List.append_cancel_left h
  have h := List.append_cancel_left h
  have h := List.append_cancel_left h
  have hw : ∀ (c : List Bool) (r : Str),
      (barred114 0 (digits114 c) ++ ([32, 91] ++ r)).takeWhile (fun x => decide (x ≠ 32)) = barred114 0 (digits114 c) := by
    intro c r
    rw [List.takeWhile_append_of_pos (by simpa using barred_space c 0)]
    simp
  have h := congrArg (List.takeWhile fun x => decide (x ≠ 32)) h
  rw [hw, hw] at h
  exact barred114_inj h

theorem linesFrom_inj : ∀ (cs ds : List (List Bool)) (i : Nat),
    ((cs.zipIdx i).map fun x => line121 x.2 x.1) = ((ds.zipIdx i).map fun x => line121 x.2 x.1) → cs = ds
  | [], [], _, _ => rfl
  | [], d :: ds, i, h => by simp at h
  | c :: cs, [], i, h => by simp at h
  | c :: cs, d :: ds, i, h => by
    simp only [List.zipIdx_cons, List.map_cons, List.cons.injEq] at h
    rw [line121_inj h.1, linesFrom_inj cs ds (i + 1) h.2]

/-- The table. -/
def text121 (codes : List (List Bool)) : Str := joinWith [10] (codes.zipIdx.map fun x => line121 x.2 x.1)

theorem split121 (cs : List (List Bool)) (hl : 2 ≤ cs.length) :
    splitOn 10 (text121 cs) = cs.zipIdx.map fun x => line121 x.2 x.1 := by
  refine splitOn_joinWith ?_ ?_
  · intro h0
    have := congrArg List.length h0
    simp only [List.length_map, List.length_zipIdx, List.length_nil] at this
    omega
  · intro p hp
    obtain ⟨x, -, rfl⟩ := List.mem_map.mp hp
    exact line121_chars _ _

theorem format121 {h : Huffman} {codes : List (List Bool)} (hc : Codes h codes) : formatCodeTable h = .ok (text121 codes) := by
  rw [formatCodeTable, hc.table, tableLines_ok]
  rfl

/-- C121: FormatCodeTable does not raise; there is a line for each symbol, with exactly its code word and the length of that; and
the text determines the code. -/
theorem C121 (table table' : FreqTable) (n n' : Nat) (h2 : 2 ≤ n) (h2' : 2 ≤ n') (hs : (table.map (·.1)).Perm (List.range n))
    (hs' : (table'.map (·.1)).Perm (List.range n')) :
    ∃ (h h' : Huffman) (codes codes' : List (List Bool)) (txt txt' : Str),
      Delta1.huffman table = .ok h ∧ Delta1.huffman table' = .ok h' ∧
      h.codeTable = codes.map (fun c => (pack c, c.length)) ∧ h'.codeTable = codes'.map (fun c => (pack c, c.length)) ∧
      formatCodeTable h = .ok txt ∧ formatCodeTable h' = .ok txt' ∧
      splitOn 10 txt = (codes.zipIdx.map fun x => line121 x.2 x.1) ∧ codes.length = n ∧
      (txt = txt' → codes = codes') := by
  obtain ⟨t, h, codes, -, e, hc, ho⟩ := Delta1.huffman_spec table n h2 hs
  obtain ⟨t', h', codes', -, e', hc', ho'⟩ := Delta1.huffman_spec table' n' h2' hs'
  have s1 := split121 codes (by rw [ho.len]; exact h2)
  have s2 := split121 codes' (by rw [ho'.len]; exact h2')
  refine ⟨h, h', codes, codes', text121 codes, text121 codes', e, e', hc.table, hc'.table, format121 hc, format121 hc', s1, ho.len,
    fun heq => ?_⟩
  rw [heq, s2] at s1
  exact (linesFrom_inj _ _ _ s1).symm

example : line121 65 [true, false, true, true] = b!"  'A' ( 65): |1011 [4]" := by decide +kernel
example : line121 256 [true, true, true, true, true, true, true, true, false] = b!"      (256): |11111111|0 [9]" := by decide +kernel

end Verif.Props
