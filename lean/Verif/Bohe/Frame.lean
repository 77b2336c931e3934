import Verif.Bohe.Model
import Verif.Bohe.Spec
import Verif.Delta1.HuffLemmas
import Verif.Bits.Use
/-
bohe frames: what compress writes, and that the reference reader reads it.
-/
namespace Verif.Bohe
open Verif Verif.Bits Verif.Bits.Spec Verif.Huff Verif.Huff.Spec Verif.Bohe.Spec

/-- The bits of a Huffman-coded value with its length. -/
def codedB (codes : List (List Bool)) (v : Str) : List Bool :=
  natBits 30 (((textBits codes (v ++ [256])).length + 7) / 8 / 4) ++ textBits codes (v ++ [256])

/-- The bits of one header; `e` is the encoded value. -/
def headerB (codes : List (List Bool)) (k v e : Str) : List Bool :=
  match idTable.idxOf? k with
  | some i =>
    natBits 8 (i + 1) ++ if k ∈ encoderNames then [true, hasU00 v] ++ (natBits 30 (e.length / 4) ++ bitsOf e)
      else [hasU00 v] ++ codedB codes e
  | none => natBits 8 (128 ||| k.length) ++ bitsOf k ++ [false, hasU00 v] ++ codedB codes v

theorem wrote_bit {b : BitBucket} {bits : List Bool} (h : Wrote b bits) (v : Bool) :
    ∃ b', storeBit b v = .ok b' ∧ Wrote b' (bits ++ [v]) :=
  wrote_op h (.storeBit v) _ (fun b => storeBit b v) (fun _ => rfl) (fun _ => rfl) trivial

theorem wrote_22 {b : BitBucket} {bits : List Bool} (h : Wrote b bits) {v : Nat} (hv : v < 2 ^ 32) :
    ∃ b', storeBits22 b v = .ok b' ∧ Wrote b' (bits ++ natBits 30 (v / 4)) := by
  have hv' : v < 4294967296 := hv
  obtain ⟨b', he, hr, hi, ho⟩ := storeBits_spec h.rep [v / 16777216, v / 65536 % 256, v / 256 % 256, v % 256] 22
    (by simp) (by
      intro x hx
      simp only [List.mem_cons, List.not_mem_nil, or_false] at hx
      omega)
  rw [bits_packL] at hr
  have h22 : storeBits22 b v = .ok b' := by simp [storeBits22, packL, hv', he, bind, Except.bind]
  refine ⟨b', h22, ?_⟩
  have := natBits_add 30 2 v
  rw [show natBits 32 v = natBits (30 + 2) v from rfl, this, List.take_left' (by simp [leftoverBits])] at hr
  exact ⟨hr, by rw [hi, ho]; exact h.pos, by rw [ho]; exact h.lt⟩

theorem wrote_coded {h : Huffman} {codes : List (List Bool)} (hc : Codes h codes) (h257 : codes.length = 257) {v : Str}
    (hv : ∀ c ∈ v, c < 256) {b : BitBucket} {bits : List Bool} (hw : Wrote b bits)
    (hl : (textBits codes (v ++ [256])).length < 2 ^ 32) :
    ∃ bytes n b1 b2, encode h v true = .ok (bytes, n) ∧ storeBits22 b bytes.length = .ok b1 ∧
      storeBits b1 bytes n = .ok b2 ∧ Wrote b2 (bits ++ codedB codes v) := by
  have e := encode_spec hc v (fun c hcs => by have := hv c hcs; omega) true (fun _ => by omega)
  simp only [if_true] at e
  have hp : (pack (textBits codes (v ++ [256]))).length = ((textBits codes (v ++ [256])).length + 7) / 8 := by
    have := congrArg List.length (bits_pack (textBits codes (v ++ [256])))
    simp [padZeros] at this
    omega
  obtain ⟨b1, e1, w1⟩ := wrote_22 hw (v := (pack (textBits codes (v ++ [256]))).length) (by rw [hp]; omega)
  obtain ⟨b2, e2, w2⟩ := wrote_store w1 (textBits codes (v ++ [256]))
  refine ⟨_, _, b1, b2, e, e1, e2, ?_⟩
  rw [hp, List.append_assoc] at w2
  exact w2

/-- A binary value is short enough for its length to be packed, other values are in the code. -/
structure Fits (codes : List (List Bool)) (k e : Str) : Prop where
  binary : k ∈ idTable → k ∈ encoderNames → e.length < 2 ^ 32
  coded : ¬ (k ∈ idTable ∧ k ∈ encoderNames) → (textBits codes (e ++ [256])).length < 2 ^ 32

theorem idTable_lt {k : Str} {i : Nat} (h : idTable.idxOf? k = some i) : i < 57 := by
  have := List.findIdx?_eq_some_iff_findIdx_eq.1 h
  have h2 := this.1
  simpa [idTable] using h2

theorem or_128 (n : Nat) (h : n < 256) : 128 ||| n < 256 := Nat.or_lt_two_pow (n := 8) (by omega) h

theorem header_writes (L : Libs) {h : Huffman} {codes : List (List Bool)} (hc : Codes h codes) (h257 : codes.length = 257)
    {k v e : Str} (hk : ∀ c ∈ k, c < 256) (he : ∀ c ∈ e, c < 256)
    (hf : Fits codes k e) (hkl : k ∉ idTable → k.length < 256)
    (hen : k ∈ idTable → encodeField L k v = .ok e) (hne : k ∉ idTable → e = v)
    {b : BitBucket} {bits : List Bool} (hw : Wrote b bits) :
    ∃ b', storeHeader L h b k v = .ok b' ∧ Wrote b' (bits ++ headerB codes k v e) := by
  cases hi : idTable.idxOf? k with
  | some i =>
    have hlt := idTable_lt hi
    have hmem : k ∈ idTable := by
      by_contra hn
      rw [List.idxOf?_eq_none_iff.2 hn] at hi
      cases hi
    obtain ⟨b1, e1, w1⟩ := wrote_8 hw (v := i + 1) (by omega)
    by_cases hb : k ∈ encoderNames
    · obtain ⟨b2, e2, w2⟩ := wrote_bit w1 true
      obtain ⟨b3, e3, w3⟩ := wrote_bit w2 (hasU00 v)
      obtain ⟨b4, e4, w4⟩ := wrote_22 w3 (v := e.length) (hf.1 hmem hb)
      obtain ⟨b5, e5, w5⟩ := wrote_bytes w4 e he
      refine ⟨b5, ?_, ?_⟩
      · rw [Nat.mul_comm] at e5
        simp [storeHeader, hi, bind, Except.bind, e1, hb, e2, e3, hen hmem, pure, Except.pure, e4, e5]
      · simpa [headerB, hi, hb] using w5
    · obtain ⟨b3, e3, w3⟩ := wrote_bit w1 (hasU00 v)
      obtain ⟨bytes, n, b4, b5, e4, e5, e6, w5⟩ := wrote_coded hc h257 he w3 (hf.2 fun h => hb h.2)
      refine ⟨b5, ?_, ?_⟩
      · simp [storeHeader, hi, bind, Except.bind, e1, hb, e3, hen hmem, pure, Except.pure, e4, e5, e6]
      · simpa [headerB, hi, hb] using w5
  | none =>
    have hn : k ∉ idTable := List.idxOf?_eq_none_iff.1 hi
    have hev := hne hn
    subst hev
    obtain ⟨b1, e1, w1⟩ := wrote_8 hw (v := 128 ||| k.length) (or_128 _ (hkl hn))
    obtain ⟨b2, e2, w2⟩ := wrote_bytes w1 k hk
    obtain ⟨b3, e3, w3⟩ := wrote_bit w2 false
    obtain ⟨b4, e4, w4⟩ := wrote_bit w3 (hasU00 e)
    obtain ⟨bytes, n, b5, b6, e5, e6, e7, w6⟩ := wrote_coded hc h257 he w4 (hf.2 fun h => hn h.1)
    refine ⟨b6, ?_, ?_⟩
    · rw [Nat.mul_comm] at e2
      simp [storeHeader, hi, bind, Except.bind, e1, e2, e3, e4, e5, e6, e7]
    · simpa [headerB, hi] using w6

/-- What is sent for a header's value. -/
def Sent (L : Libs) (k v e : Str) : Prop := if k ∈ idTable then encodeField L k v = .ok e else e = v

/-- What can be sent: bytes, of a length that can be packed; names of at most 255 characters. -/
structure CanSend (L : Libs) (codes : List (List Bool)) (k v e : Str) : Prop where
  sent : Sent L k v e
  name : ∀ c ∈ k, c < 256
  value : ∀ c ∈ e, c < 256
  fits : Fits codes k e
  short : k ∉ idTable → k.length < 256

theorem header_writes' (L : Libs) {h : Huffman} {codes : List (List Bool)} (hc : Codes h codes) (h257 : codes.length = 257)
    {k v e : Str} (hs : CanSend L codes k v e) {b : BitBucket} {bits : List Bool} (hw : Wrote b bits) :
    ∃ b', storeHeader L h b k v = .ok b' ∧ Wrote b' (bits ++ headerB codes k v e) := by
  by_cases hm : k ∈ idTable
  · refine header_writes L hc h257 hs.name hs.value hs.fits hs.short (fun _ => ?_) (fun hn => absurd hm hn) hw
    have := hs.sent
    rwa [Sent, if_pos hm] at this
  · have he : e = v := by
      have := hs.sent
      rwa [Sent, if_neg hm] at this
    exact header_writes L hc h257 hs.name hs.value hs.fits hs.short (fun h => absurd h hm) (fun _ => he) hw

/-- The bits of all headers. -/
def frameB (codes : List (List Bool)) : List Hdr → List Str → List Bool
  | (k, v) :: items, e :: es => headerB codes k v e ++ frameB codes items es
  | _, _ => []

theorem headers_write (L : Libs) {h : Huffman} {codes : List (List Bool)} (hc : Codes h codes) (h257 : codes.length = 257)
    {items : List Hdr} {es : List Str} (hs : List.Forall₂ (fun p e => CanSend L codes p.1 p.2 e) items es) :
    ∀ {b : BitBucket} {bits : List Bool}, Wrote b bits →
    ∃ b', storeHeaders L h b items = .ok b' ∧ Wrote b' (bits ++ frameB codes items es) := by
  induction hs with
  | nil => intro b bits hw; exact ⟨b, rfl, by simpa [frameB] using hw⟩
  | @cons p e items es h1 _ ih =>
    intro b bits hw
    obtain ⟨k, v⟩ := p
    obtain ⟨b1, e1, w1⟩ := header_writes' L hc h257 h1 hw
    obtain ⟨b2, e2, w2⟩ := ih w1
    refine ⟨b2, ?_, ?_⟩
    · simp only [storeHeaders, bind, Except.bind, e1, e2]
    · simpa [frameB] using w2

theorem compress_bits (L : Libs) {h : Huffman} {codes : List (List Bool)} (hc : Codes h codes) (h257 : codes.length = 257)
    {items : List Hdr} {es : List Str} (hs : List.Forall₂ (fun p e => CanSend L codes p.1 p.2 e) items es) :
    compress L h items = .ok (pack (frameB codes items es)) := by
  obtain ⟨b, e, w⟩ := headers_write L hc h257 hs wrote_empty
  simp only [compress, bind, Except.bind, e, pure, Except.pure, (wrote_out w).1, List.nil_append]

/-! ### Reading -/

theorem readNum_append (n v : Nat) (hv : v < 2 ^ n) (rest : List Bool) :
    readNum n (natBits n v ++ rest) = some (v, rest) := by
  unfold readNum
  rw [if_pos (by simp), List.take_left' (by simp), List.drop_left' (by simp), toNat_natBits, Nat.mod_eq_of_lt hv]

theorem readOctets_append (s : Str) (hs : ∀ c ∈ s, c < 256) (rest : List Bool) :
    readOctets s.length (bitsOf s ++ rest) = some (s, rest) := by
  induction s with
  | nil => rfl
  | cons c s ih =>
    have := readNum_append 8 c (hs c (by simp)) (bitsOf s ++ rest)
    rw [bitsOf_cons, List.append_assoc, byteBits, List.length_cons, readOctets, this]
    simp [ih fun x hx => hs x (by simp [hx])]

theorem readSym_append {codes : List (List Bool)} (hf : PrefixFree codes) {i : Nat} {c : List Bool}
    (hi : codes[i]? = some c) (rest : List Bool) : readSym codes (c ++ rest) = some (i, rest) := by
  have hfind : codes.findIdx? (fun d => d.isPrefixOf (c ++ rest)) = some i := by
    rw [List.findIdx?_eq_some_iff_getElem]
    obtain ⟨hlt, hg⟩ := List.getElem?_eq_some_iff.1 hi
    refine ⟨hlt, by simp [hg], fun j hj hp => ?_⟩
    rw [List.isPrefixOf_iff_prefix] at hp
    have hjlt : j < codes.length := by omega
    have hjs : codes[j]? = some codes[j] := List.getElem?_eq_getElem hjlt
    rcases List.prefix_or_prefix_of_prefix hp (List.prefix_append c rest) with h | h
    · exact absurd (hf j i _ _ hjs hi h) (by omega)
    · exact absurd (hf i j _ _ hi hjs h) (by omega)
  unfold readSym
  rw [hfind]
  simp [hi]

theorem readString_append {codes : List (List Bool)} (hf : PrefixFree codes) (h257 : codes.length = 257)
    (hne : ∀ c ∈ codes, c ≠ []) (s : Str) (hs : ∀ c ∈ s, c < 256) (rest : List Bool) :
    ∀ fuel, (textBits codes (s ++ [256])).length < fuel →
      readString codes fuel (textBits codes (s ++ [256]) ++ rest) = some (s, rest) := by
  induction s with
  | nil =>
    intro fuel hl
    obtain ⟨fuel, rfl⟩ : ∃ f, fuel = f + 1 := ⟨fuel - 1, by omega⟩
    have hi : codes[256]? = some codes[256] := List.getElem?_eq_getElem (by omega)
    simp [textBits, readString, hi, readSym_append hf hi]
  | cons c s ih =>
    intro fuel hl
    obtain ⟨fuel, rfl⟩ : ∃ f, fuel = f + 1 := ⟨fuel - 1, by omega⟩
    have hc := hs c (by simp)
    have hi : codes[c]? = some codes[c] := List.getElem?_eq_getElem (by omega)
    have hsplit : textBits codes (c :: s ++ [256]) = codes[c] ++ textBits codes (s ++ [256]) := by
      simp [textBits, hi]
    have hpos : 0 < codes[c].length := List.length_pos_iff.2 (hne _ (List.getElem_mem _))
    rw [hsplit, List.length_append] at hl
    rw [hsplit, List.append_assoc, readString, readSym_append hf hi]
    simp only [Option.bind_some]
    rw [if_neg (by omega), ih (fun x hx => hs x (by simp [hx])) fuel (by omega)]
    rfl

theorem readCoded_append {codes : List (List Bool)} (hf : PrefixFree codes) (h257 : codes.length = 257)
    (hne : ∀ c ∈ codes, c ≠ []) (s : Str) (hs : ∀ c ∈ s, c < 256)
    (hl : (textBits codes (s ++ [256])).length < 2 ^ 32) (rest : List Bool) :
    readCoded codes (codedB codes s ++ rest) = some (s, rest) := by
  unfold readCoded codedB
  rw [List.append_assoc, readNum_append 30 _ (by omega)]
  simp only [Option.bind_some]
  rw [readString_append hf h257 hne s hs rest _ (by simp; omega)]
  simp

/-- A header that the reader understands: a name of the table or of at most 127 characters; a binary value of a length
that is a multiple of four. -/
structure Readable (k e : Str) : Prop where
  short : k ∉ idTable → k.length < 128
  four : k ∈ idTable → k ∈ encoderNames → e.length % 4 = 0

theorem idx_get {k : Str} {i : Nat} (h : idTable.idxOf? k = some i) : idTable[i]? = some k := by
  have := List.findIdx?_eq_some_iff_getElem.1 h
  obtain ⟨hlt, he, -⟩ := this
  rw [List.getElem?_eq_getElem hlt]
  simpa using he

theorem or_128_add (n : Nat) (h : n < 128) : 128 ||| n = 128 + n := by
  have := Nat.two_pow_add_eq_or_of_lt (b := n) (i := 7) h 1
  simpa using this.symm

theorem readHeader_append {codes : List (List Bool)} (hf : PrefixFree codes) (h257 : codes.length = 257)
    (hne : ∀ c ∈ codes, c ≠ []) {L : Libs} {k v e : Str} (hs : CanSend L codes k v e) (hr : Readable k e)
    (rest : List Bool) :
    readHeader idTable encoderNames codes (headerB codes k v e ++ rest) = some ((k, e, hasU00 v), rest) := by
  cases hi : idTable.idxOf? k with
  | some i =>
    have hlt := idTable_lt hi
    have hmem : k ∈ idTable := by
      by_contra hn
      rw [List.idxOf?_eq_none_iff.2 hn] at hi
      cases hi
    have hg := idx_get hi
    by_cases hb : k ∈ encoderNames
    · have h4 := hr.four hmem hb
      have h30 := readNum_append 30 (e.length / 4) (by have := hs.fits.1 hmem hb; omega) (bitsOf e ++ rest)
      have hq := readOctets_append e hs.value rest
      rw [show e.length = 4 * (e.length / 4) by omega] at hq
      simp only [headerB, hi, hb, if_true, List.append_assoc, readHeader]
      rw [readNum_append 8 (i + 1) (by omega)]
      simp only [Option.bind_some]
      rw [if_pos (by omega), if_neg (by omega), Nat.add_sub_cancel, hg]
      simp only [Option.bind_some, hb, if_true, List.cons_append, List.nil_append, readBit]
      rw [h30]
      simp only [Option.bind_some, hq]
      rfl
    · simp only [headerB, hi, hb, if_false, List.append_assoc, readHeader]
      rw [readNum_append 8 (i + 1) (by omega)]
      simp only [Option.bind_some]
      rw [if_pos (by omega), if_neg (by omega), Nat.add_sub_cancel, hg]
      simp only [Option.bind_some, hb, if_false, List.cons_append, List.nil_append, readBit]
      rw [readCoded_append hf h257 hne e hs.value (hs.fits.2 fun h => hb h.2)]
      rfl
  | none =>
    have hn : k ∉ idTable := List.idxOf?_eq_none_iff.1 hi
    have hev : e = v := by
      have := hs.sent
      rwa [Sent, if_neg hn] at this
    subst hev
    have hk := hr.short hn
    simp only [headerB, hi, List.append_assoc, readHeader]
    rw [or_128_add _ hk, readNum_append 8 _ (by omega)]
    simp only [Option.bind_some]
    rw [if_neg (by omega), Nat.add_sub_cancel_left, readOctets_append k hs.name]
    simp only [Option.bind_some, List.cons_append, List.nil_append, readBit]
    rw [readCoded_append hf h257 hne e hs.value (hs.fits.2 fun h => hn h.1)]
    rfl

theorem headerB_long (codes : List (List Bool)) (k v e : Str) : 8 ≤ (headerB codes k v e).length := by
  unfold headerB
  split <;> simp

theorem readFrame_frameB {codes : List (List Bool)} (hf : PrefixFree codes) (h257 : codes.length = 257)
    (hne : ∀ c ∈ codes, c ≠ []) {L : Libs} {items : List Hdr} {es : List Str}
    (hs : List.Forall₂ (fun p e => CanSend L codes p.1 p.2 e ∧ Readable p.1 e) items es) (rest : List Bool)
    (hrest : rest.length < 8) : ∀ fuel, (frameB codes items es).length < fuel →
    readFrame idTable encoderNames codes fuel (frameB codes items es ++ rest) =
      some (List.zipWith (fun p e => (p.1, e, hasU00 p.2)) items es) := by
  induction hs with
  | nil =>
    intro fuel hl
    obtain ⟨fuel, rfl⟩ : ∃ f, fuel = f + 1 := ⟨fuel - 1, by omega⟩
    simp [frameB, readFrame, hrest]
  | @cons p e items es h1 _ ih =>
    intro fuel hl
    obtain ⟨k, v⟩ := p
    obtain ⟨fuel, rfl⟩ : ∃ f, fuel = f + 1 := ⟨fuel - 1, by omega⟩
    have h8 := headerB_long codes k v e
    simp only [frameB, List.length_append] at hl
    simp only [frameB, List.append_assoc, readFrame]
    rw [if_neg (by simp; omega), readHeader_append hf h257 hne h1.1 h1.2]
    simp only [Option.bind_some]
    rw [ih fuel (by omega)]
    rfl

end Verif.Bohe
