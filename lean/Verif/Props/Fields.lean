import Verif.Delta2.FieldLemmas
import Verif.Huff.Shipped
/-
C17, C18 and C20: the fields of delta2 operations.

`Holds b t` (Verif/Bits/Run.lean) says that the bucket `b` contains the bits of the tape `t` with
the read pointer at `t.pos`; C13 shows that every bucket reached from the empty one holds a tape.
-/
namespace Verif.Props
open Verif Verif.Bits Verif.Bits.Spec Verif.Huff Verif.Huff.Spec Verif.Delta2

theorem at_of_holds {b : BitBucket} {t : Tape} (h : Holds b t) {x rest : List Bool} (hx : x ≠ [])
    (he : t.bits.drop t.pos = x ++ rest) : At b (t.bits.take t.pos) (x ++ rest) ∧ (t.bits.take t.pos).length = t.pos := by
  have hl : (t.bits.take t.pos).length = t.pos := by
    have := congrArg List.length he
    simp only [List.length_drop, List.length_append] at this
    have := List.length_pos_iff.2 hx
    rw [List.length_take]
    omega
  refine ⟨?_, hl⟩
  unfold At
  rw [hl, ← he, List.take_append_drop]
  exact h

theorem holds_of_at {b' : BitBucket} {t : Tape} {x rest : List Bool} (he : t.bits.drop t.pos = x ++ rest)
    (hl : (t.bits.take t.pos).length = t.pos) (h : At b' (t.bits.take t.pos ++ x) rest) :
    Holds b' { t with pos := t.pos + x.length } := by
  unfold At at h
  rw [List.append_assoc, ← he, List.take_append_drop, List.length_append, hl] at h
  exact h

/-! ### C17 -/

/-- C17: PackVarInt appends bits that depend on the value only; UnpackVarInt, wherever it finds these
bits, returns the value and moves the read pointer past them. -/
theorem C17_varint (v : Nat) : ∃ code : List Bool,
    (∀ (b : BitBucket) (t : Tape), Holds b t → ∃ b', packVarInt b v = .ok b' ∧ Holds b' (t.write code)) ∧
    (∀ (b : BitBucket) (t : Tape) (rest : List Bool), Holds b t → t.bits.drop t.pos = code ++ rest →
      ∃ b', unpackVarInt b = .ok (b', (v : Int)) ∧ Holds b' { t with pos := t.pos + code.length }) := by
  refine ⟨varBits v, fun b t h => packVarInt_spec v h, fun b t rest h he => ?_⟩
  have hne : varBits v ≠ [] := by
    intro h0
    have := varBits_len v
    rw [h0] at this
    simp at this
  obtain ⟨ha, hl⟩ := at_of_holds h hne he
  obtain ⟨b', e, h'⟩ := unpackVarInt_spec v ha
  exact ⟨b', e, holds_of_at he hl h'⟩

/-- A negative value is refused. -/
theorem C17_negative (b : BitBucket) (v : Int) (h : v < 0) : packVarInt b v = .error .assertion := by
  rw [packVarInt, if_pos h]

/-- Three bits, then 300 as 15, 5+8, 3+8, 4. -/
example : ((storeBits BitBucket.empty [0xa0] 3).bind fun b => packVarInt b 300) =
    .ok { output := [0xbf, 0xb6, 0x80], outBoff := 3, idxByte := 0, idxBoff := 0 } := by decide +kernel
example : (((storeBits BitBucket.empty [0xa0] 3).bind fun b => packVarInt b 300).bind fun b =>
    (getBits b 3).bind fun r => unpackVarInt r.1).map (·.2) = .ok 300 := by decide +kernel

/-! ### C18 -/

/-- C18, what fits (for what does not, see `C18_exact` and `C18_false`): for widths 1 to 32, UnpackInt reads back what PackInt wrote. -/
theorem C18_fits_partial (bitlen val : Nat) (h1 : 1 ≤ bitlen) (h2 : bitlen ≤ 32) (hv : val < 2 ^ bitlen) :
    ∃ code : List Bool, code.length = bitlen ∧
      (∀ (b : BitBucket) (t : Tape), Holds b t → ∃ b', packInt b bitlen val = .ok b' ∧ Holds b' (t.write code)) ∧
      (∀ (b : BitBucket) (t : Tape) (rest : List Bool), Holds b t → t.bits.drop t.pos = code ++ rest →
        ∃ b', unpackInt b bitlen = .ok (b', val) ∧ Holds b' { t with pos := t.pos + code.length }) := by
  refine ⟨natBits bitlen val, by simp, fun b t h => ?_, fun b t rest h he => ?_⟩
  · have := packInt_spec bitlen val h1 h2 h
    rw [if_neg (by simp [Nat.testBit_lt_two_pow hv]), if_pos (Or.inl hv)] at this
    exact this
  · have hne : natBits bitlen val ≠ [] := by
      intro h0
      have := natBits_length bitlen val
      rw [h0] at this
      simp at this
      omega
    obtain ⟨ha, hl⟩ := at_of_holds h hne he
    obtain ⟨b', e, h'⟩ := unpackInt_spec bitlen val h1 h2 ha
    rw [Nat.mod_eq_of_lt hv] at e
    exact ⟨b', e, holds_of_at he hl h'⟩

/-- C18, what does not fit: it is refused, with two different exceptions, except for widths 17 to 24,
where the guard and `struct.pack` both let pass values of up to eight more bits whose bit `bitlen`
is zero; these are stored modulo `2 ** bitlen`. -/
theorem C18_exact (bitlen val : Nat) (h1 : 1 ≤ bitlen) (h2 : bitlen ≤ 32) (hv : 2 ^ bitlen ≤ val)
    (b : BitBucket) (t : Tape) (h : Holds b t) :
    (val.testBit bitlen = true → packInt b bitlen val = .error .standard) ∧
    (val.testBit bitlen = false → ¬ (17 ≤ bitlen ∧ bitlen ≤ 24 ∧ val < 2 ^ (bitlen + 8)) →
      packInt b bitlen val = .error .struct) ∧
    (val.testBit bitlen = false → 17 ≤ bitlen → bitlen ≤ 24 → val < 2 ^ (bitlen + 8) →
      ∃ b', packInt b bitlen val = .ok b' ∧ Holds b' (t.write (natBits bitlen val))) := by
  have := packInt_spec bitlen val h1 h2 h
  refine ⟨fun hb => ?_, fun hb hn => ?_, fun hb c1 c2 c3 => ?_⟩
  · rwa [if_pos hb] at this
  · rw [if_neg (by simp [hb]), if_neg] at this
    · exact this
    · rintro (hh | hh)
      · omega
      · exact hn hh
  · rw [if_neg (by simp [hb]), if_pos (Or.inr ⟨c1, c2, c3⟩)] at this
    exact this

/-- C18 is false: 262145 does not fit into 17 bits, is accepted and read back as 1. -/
theorem C18_false : 2 ^ 17 ≤ 262145 ∧
    ((packInt BitBucket.empty 17 262145).bind fun b => unpackInt b 17).map (·.2) = .ok 1 := by decide +kernel

/-- Widths outside 1..32 are refused. -/
theorem C18_width (b : BitBucket) (bitlen val : Nat) (h : bitlen = 0 ∨ 32 < bitlen) :
    packInt b bitlen val = .error .standard := by
  rw [packInt, if_pos]
  omega

example : ((packInt BitBucket.empty 11 1234).bind fun b => unpackInt b 11).map (·.2) = .ok 1234 := by decide +kernel

/-! ### C20 -/

/-- C20: for a Huffman object built from any table of 257 symbols (with any arithmetic on the
weights and any iteration order of dictionaries), PackStr appends some bits `x`, and UnpackStr, wherever it finds `x` at the same alignment,
returns the string and moves the read pointer past `x`; with padding both end on a byte boundary. -/
theorem C20_strings {W : Type} (ops : Weights W) (ord : Dict Nat (List Nat) → List (Nat × List Nat))
    (table : FreqTable) (divisor : Nat) (hsyms : (table.map (·.1)).Perm (List.range 257)) (tree : Huff.Tree W)
    (ht : buildCodeTree ops table divisor = .ok tree)
    (hord : ∀ d, discover tree.size [(tree, 0)] [] = .ok d → (ord d).Perm d) (h : Huffman) (hh : buildCodeTable ord tree = .ok h) (pad : Bool) (s : Str) (hs : ∀ c ∈ s, c < 256)
    (b : BitBucket) (t : Tape) (hb : Holds b t) :
    ∃ (b' : BitBucket) (x : List Bool), packStr (some h) pad true b s = .ok b' ∧ Holds b' (t.write x) ∧
      (pad = true → (t.bits.length + x.length) % 8 = 0) ∧
      ∀ (c : BitBucket) (u : Tape) (rest : List Bool), Holds c u → u.pos % 8 = t.bits.length % 8 →
        u.bits.drop u.pos = x ++ rest →
        ∃ c', unpackStr (some h) pad true c = .ok (c', s) ∧ Holds c' { u with pos := u.pos + x.length } := by
  obtain ⟨hsy, _, hn⟩ := buildCodeTree_spec ops ht
  obtain ⟨codes, hc, ho⟩ : ∃ codes, Codes h codes ∧ CodesOf tree 257 codes := by
    rcases buildCodeTable_total ord tree 257 hn (hsy.trans hsyms) hord with ⟨h', codes, e, hc, ho⟩ | e
    · rw [hh] at e
      cases e
      exact ⟨codes, hc, ho⟩
    · rw [hh] at e
      cases e
  obtain ⟨b', e1, h1⟩ := packStr_spec hc ho.len pad s hs hb
  have hmod : ∀ n m : Nat, n % 8 = m % 8 → strBits codes pad n s = strBits codes pad m s := by
    intro n m hnm
    have : ∀ l : Nat, (n + l) % 8 = (m + l) % 8 := fun l => by omega
    simp only [strBits, padZeros, this]
  refine ⟨b', _, e1, h1, ?_, ?_⟩
  · intro hp
    simp only [strBits, hp, if_true, List.length_append, padZeros, List.length_replicate]
    omega
  · intro c u rest hcu hpos he
    have hne : strBits codes pad t.bits.length s ≠ [] := by
      have hp : 0 < (textBits codes (s ++ [256])).length := by
        have := code_pos hc (by rw [ho.len]; omega : 256 < codes.length)
        simp only [textBits, List.flatMap_append, List.length_append, List.flatMap_cons, List.flatMap_nil,
          List.append_nil]
        omega
      intro h0
      have := congrArg List.length h0
      simp only [strBits, List.length_nil] at this
      cases pad <;> simp at this <;> simp_all
    obtain ⟨ha, hl⟩ := at_of_holds hcu hne he
    rw [hmod t.bits.length (u.bits.take u.pos).length (by rw [hl]; exact hpos.symm)] at ha he ⊢
    obtain ⟨c', e2, h2⟩ := unpackStr_spec hc ho.len pad s hs ha
    exact ⟨c', e2, holds_of_at he hl h2⟩

/-- The objects used by the Processor satisfy the hypotheses of `C20_strings`. -/
theorem C20_shipped (table : FreqTable)
    (hshipped : table = requestTable ∨ table = responseTable ∨ table = oldRequestTable ∨ table = oldResponseTable) :
    ∃ (tree : Huff.Tree Nat) (h : Huffman), huffman exact cpyOrder table = .ok h ∧
      (table.map (·.1)).Perm (List.range 257) ∧ buildCodeTree whole table 1 = .ok tree ∧
      (∀ d, discover tree.size [(tree, 0)] [] = .ok d → (cpyOrder d).Perm d) ∧ buildCodeTable cpyOrder tree = .ok h := by
  have hok : tableOk table = true := by
    rcases hshipped with rfl | rfl | rfl | rfl
    · exact request_ok
    · exact response_ok
    · exact oldRequest_ok
    · exact oldResponse_ok
  obtain ⟨hs, t, ht, hd, hasc⟩ := tableOk_spec hok
  obtain ⟨hsy, hdo, hn⟩ := buildCodeTree_spec whole ht
  rw [hs] at hsy
  obtain ⟨h, codes, e, hc, ho⟩ := buildCodeTable_spec cpyOrder t 257 hn hsy hasc
  exact ⟨t, h, by rw [huffman_exact cpyOrder ht, if_pos hd, e], by rw [hs], ht, fun d hd => (hasc d hd).1, e⟩

/-- Without Huffman coding PackStr does not work at all. -/
theorem C20_plain_false (huff : Option Huffman) (pad : Bool) (b : BitBucket) (s : Str) :
    packStr huff pad false b s = .error .name := rfl

/-- What UnpackStr would read without Huffman coding: bytes up to a zero byte. -/
example : (storeBits BitBucket.empty [104, 105, 0, 7] 32).bind (fun b => (unpackStr none true false b).map (·.2)) =
    .ok [104, 105] := by decide +kernel

/-- A uniform code with 9-bit words: all depths are 8 or 9. -/
def flatTable : FreqTable := (List.range 257).map fun i => (i, 1)

example : ((buildCodeTree whole flatTable 1).bind fun t => (buildCodeTable cpyOrder t).bind fun h =>
    (packStr (some h) true true BitBucket.empty [104, 105]).bind fun b =>
      (unpackStr (some h) true true b).map (·.2)) = .ok [104, 105] := by decide +kernel

end Verif.Props
