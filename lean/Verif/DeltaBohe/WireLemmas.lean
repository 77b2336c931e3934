import Verif.DeltaBohe.Model
import Verif.Delta1.WireLemmas
import Verif.Delta1.CodecLemmas
/-
delta_bohe: what is written.
-/
namespace Verif.DeltaBohe
open Verif Verif.Bits Verif.Bits.Spec Verif.Huff Verif.Huff.Spec

/-- The values of an operation can be packed: indices of 16 bits, strings of bytes. -/
def OpOk : Op → Prop
  | .toggl i => i < 2 ^ 16
  | .trang s l => s < 2 ^ 16 ∧ l < 2 ^ 16
  | .clone k v _ => k < 2 ^ 16 ∧ ∀ c ∈ v, c < 256
  | .kvsto k v _ => (∀ c ∈ k, c < 256) ∧ ∀ c ∈ v, c < 256

/-- The bits of a string. -/
def strW (codes : List (List Bool)) (huff : Bool) (s : Str) : List Bool := if huff then Delta1.strB codes s else bitsOf s

/-- The bits of an operation. -/
def opW (codes : List (List Bool)) : Op → List Bool
  | .toggl i => natBits 16 i
  | .trang s l => natBits 16 l ++ natBits 16 s
  | .clone k v huff => natBits 16 k ++ strW codes huff v
  | .kvsto k v huff => strW codes huff k ++ strW codes huff v

/-- The bits of the operations with one opcode. -/
def blockW (codes : List (List Bool)) (opcode : Nat) (ops : List Op) : List Bool :=
  if ops.length = 0 then [] else natBits 8 opcode ++ natBits 8 (min 256 ops.length - 1) ++ ops.flatMap (opW codes)

/-- The bits of the operations of a message. -/
def payloadW (codes : List (List Bool)) (g : Instrs) : List Bool :=
  blockW codes 1 ((Delta1.toggleRanges g.toggl).ot.map .toggl) ++
    (blockW codes 2 ((Delta1.toggleRanges g.toggl).otr.map fun x => .trang x.1 x.2) ++
      (blockW codes 3 (g.clone.map fun x => .clone x.1 x.2.1 x.2.2) ++ blockW codes 4 (g.kvsto.map fun x => .kvsto x.1 x.2.1 x.2.2)))

theorem code_pos {h : Huffman} {codes : List (List Bool)} (hc : Codes h codes) {c : Nat} (hlt : c < codes.length) :
    ((codes[c]?).getD []).length ≠ 0 := by
  rw [List.getElem?_eq_getElem hlt]
  simp only [Option.getD_some]
  intro h0
  exact hc.nonempty _ (List.getElem_mem hlt) (List.length_eq_zero_iff.1 h0)

theorem encodeLoop_spec {h : Huffman} {codes : List (List Bool)} (hc : Codes h codes) (text : List Nat)
    (ht : ∀ c ∈ text, c < codes.length) : ∀ {b : BitBucket} {bits : List Bool}, Wrote b bits →
    ∃ b', encodeLoop h text b = .ok b' ∧ Wrote b' (bits ++ textBits codes text) := by
  induction text with
  | nil => intro b bits hw; exact ⟨b, rfl, by simpa [textBits] using hw⟩
  | cons c text ih =>
    intro b bits hw
    have hlt := ht c (by simp)
    obtain ⟨b1, e1, w1⟩ := wrote_store hw ((codes[c]?).getD [])
    obtain ⟨b2, e2, w2⟩ := ih (fun x hx => ht x (by simp [hx])) w1
    have hcode : h.codeTable[c]? = some (pack ((codes[c]?).getD []), ((codes[c]?).getD []).length) := by
      rw [hc.table, List.getElem?_map, List.getElem?_eq_getElem hlt]; rfl
    have hne : numBits b1 ≠ numBits b := by
      rw [(wrote_out w1).2, (wrote_out hw).2, List.length_append]
      have := code_pos hc hlt
      omega
    refine ⟨b2, ?_, by simpa [textBits] using w2⟩
    simp only [encodeLoop, hcode, bind, Except.bind, e1, if_neg hne, e2]

theorem encodeStr_spec {h : Huffman} {codes : List (List Bool)} (hc : Codes h codes) (h257 : codes.length = 257) {s : Str}
    (hs : ∀ c ∈ s, c < 256) : encodeStr h s = .ok (pack (textBits codes (s ++ [256]))) := by
  obtain ⟨b1, e1, w1⟩ := encodeLoop_spec hc s (fun c hcs => by have := hs c hcs; omega) wrote_empty
  obtain ⟨b2, e2, w2⟩ := wrote_store w1 ((codes[256]?).getD [])
  have hlt : 256 < codes.length := by omega
  have hcode : h.codeTable[256]? = some (pack ((codes[256]?).getD []), ((codes[256]?).getD []).length) := by
    rw [hc.table, List.getElem?_map, List.getElem?_eq_getElem hlt]; rfl
  simp only [encodeStr, bind, Except.bind, e1, hcode, e2, pure, Except.pure, (wrote_out w2).1]
  congr 2
  simp [textBits]

theorem str_writes {h : Huffman} {codes : List (List Bool)} (hc : Codes h codes) (h257 : codes.length = 257) {s : Str}
    (hs : ∀ c ∈ s, c < 256) (huff : Bool) {b : BitBucket} {bits : List Bool} (hw : Wrote b bits) :
    ∃ b', packStr h huff b s = .ok b' ∧ Wrote b' (bits ++ strW codes huff s) := by
  cases huff with
  | false =>
    obtain ⟨b', e2, w⟩ := wrote_bytes hw s hs
    refine ⟨b', ?_, ?_⟩
    · rw [Nat.mul_comm] at e2
      simpa [packStr] using e2
    · simpa [strW] using w
  | true =>
    obtain ⟨b', e2, w⟩ := wrote_bytes hw (pack (textBits codes (s ++ [256]))) (pack_lt _)
    refine ⟨b', ?_, ?_⟩
    · simp only [packStr, if_true, bind, Except.bind, encodeStr_spec hc h257 hs]
      rw [Nat.mul_comm]
      exact e2
    · rw [bits_pack] at w
      simpa [strW, Delta1.strB, Delta2.strBits] using w

theorem op_writes {h : Huffman} {codes : List (List Bool)} (hc : Codes h codes) (h257 : codes.length = 257) {op : Op}
    (ho : OpOk op) {b : BitBucket} {bits : List Bool} (hw : Wrote b bits) :
    ∃ b', writeOp h b op = .ok b' ∧ Wrote b' (bits ++ opW codes op) := by
  cases op with
  | toggl i => exact Delta1.int_writes hw ho
  | trang s l =>
    obtain ⟨b1, e1, w1⟩ := Delta1.int_writes hw ho.2
    obtain ⟨b2, e2, w2⟩ := Delta1.int_writes w1 ho.1
    exact ⟨b2, by simp only [writeOp, bind, Except.bind, e1, e2], by simpa [opW] using w2⟩
  | clone k v huff =>
    obtain ⟨b1, e1, w1⟩ := Delta1.int_writes hw ho.1
    obtain ⟨b2, e2, w2⟩ := str_writes hc h257 ho.2 huff w1
    exact ⟨b2, by simp only [writeOp, bind, Except.bind, e1, e2], by simpa [opW] using w2⟩
  | kvsto k v huff =>
    obtain ⟨b1, e1, w1⟩ := str_writes hc h257 ho.1 huff hw
    obtain ⟨b2, e2, w2⟩ := str_writes hc h257 ho.2 huff w1
    exact ⟨b2, by simp only [writeOp, bind, Except.bind, e1, e2], by simpa [opW] using w2⟩

theorem ops_write {h : Huffman} {codes : List (List Bool)} (hc : Codes h codes) (h257 : codes.length = 257) (ops : List Op) :
    (∀ op ∈ ops, OpOk op) → ∀ {b : BitBucket} {bits : List Bool}, Wrote b bits →
    ∃ b', writeOps h ops b = .ok b' ∧ Wrote b' (bits ++ ops.flatMap (opW codes)) := by
  induction ops with
  | nil => intro _ b bits hw; exact ⟨b, rfl, by simpa using hw⟩
  | cons op ops ih =>
    intro ho b bits hw
    obtain ⟨b1, e1, w1⟩ := op_writes hc h257 (ho op (by simp)) hw
    obtain ⟨b2, e2, w2⟩ := ih (fun o hm => ho o (by simp [hm])) w1
    exact ⟨b2, by simp only [writeOps, bind, Except.bind, e1, e2], by simpa using w2⟩

theorem outputOps_writes {h : Huffman} {codes : List (List Bool)} (hc : Codes h codes) (h257 : codes.length = 257)
    {opcode : Nat} (hoc : opcode < 2 ^ 8) (ops : List Op) (ho : ∀ op ∈ ops, OpOk op) {b : BitBucket} {bits : List Bool} (hw : Wrote b bits) :
    ∃ b', outputOps h opcode ops b = .ok b' ∧ Wrote b' (bits ++ blockW codes opcode ops) := by
  unfold outputOps blockW
  by_cases h0 : ops.length = 0
  · rw [if_pos h0, if_pos h0]
    exact ⟨b, rfl, by simpa using hw⟩
  · rw [if_neg h0, if_neg h0]
    obtain ⟨b1, e1, w1⟩ := wrote_8 hw hoc
    obtain ⟨b2, e2, w2⟩ := wrote_8 w1 (v := min 256 ops.length - 1) (by omega)
    obtain ⟨b3, e3, w3⟩ := ops_write hc h257 ops ho w2
    exact ⟨b3, by simp only [bind, Except.bind, e1, e2, e3], by simpa using w3⟩

theorem flatMap_mod {α : Type} (f : α → List Bool) (l : List α) (h : ∀ x ∈ l, (f x).length % 8 = 0) :
    (l.flatMap f).length % 8 = 0 := by
  induction l with
  | nil => rfl
  | cons x l ih =>
    have h1 := h x (by simp)
    have h2 := ih fun y hy => h y (by simp [hy])
    simp only [List.flatMap_cons, List.length_append]
    omega

theorem strW_len (codes : List (List Bool)) (huff : Bool) (s : Str) : (strW codes huff s).length % 8 = 0 := by
  unfold strW
  split
  · exact Delta1.strB_len codes s
  · simp

theorem blockW_len (codes : List (List Bool)) (opcode : Nat) (ops : List Op) : (blockW codes opcode ops).length % 8 = 0 := by
  have : (ops.flatMap (opW codes)).length % 8 = 0 := by
    refine flatMap_mod _ _ fun op _ => ?_
    cases op with
    | toggl i => simp [opW]
    | trang s l => simp [opW]
    | clone k v huff => have := strW_len codes huff v; simp only [opW, List.length_append, natBits_length]; omega
    | kvsto k v huff =>
      have := strW_len codes huff v
      have := strW_len codes huff k
      simp only [opW, List.length_append]; omega
  unfold blockW
  split
  · rfl
  · simp only [List.length_append, natBits_length]; omega

theorem payloadW_len (codes : List (List Bool)) (g : Instrs) : (payloadW codes g).length % 8 = 0 := by
  unfold payloadW
  simp only [List.length_append]
  have h1 := blockW_len codes 1 ((Delta1.toggleRanges g.toggl).ot.map .toggl)
  have h2 := blockW_len codes 2 ((Delta1.toggleRanges g.toggl).otr.map fun x => .trang x.1 x.2)
  have h3 := blockW_len codes 3 (g.clone.map fun x => .clone x.1 x.2.1 x.2.2)
  have h4 := blockW_len codes 4 (g.kvsto.map fun x => .kvsto x.1 x.2.1 x.2.2)
  omega

/-! ### Frames -/

/-- The bits of a frame header. -/
def headW (len flags streamId frameType : Nat) : List Bool :=
  natBits 16 len ++ natBits 8 flags ++ natBits 32 (0x80000000 ||| streamId) ++ natBits 8 frameType

theorem headW_len (len flags streamId frameType : Nat) :
    (headW len flags streamId frameType).length = 64 := by simp [headW]

theorem boilerplate_spec {b : BitBucket} {bits : List Bool} (h : Wrote b bits) {len flags streamId frameType : Nat}
    (h1 : len < 2 ^ 16) (h2 : flags < 2 ^ 8) (h3 : streamId < 2 ^ 31) (h5 : frameType < 2 ^ 8) :
    ∃ b', boilerplate b len flags streamId frameType = .ok b' ∧
      Wrote b' (bits ++ headW len flags streamId frameType) := by
  obtain ⟨b1, e1, w1⟩ := wrote_16 h h1
  obtain ⟨b2, e2, w2⟩ := wrote_8 w1 h2
  have hor : 0x80000000 ||| streamId = 2 ^ 31 + streamId := by
    have := Nat.two_pow_add_eq_or_of_lt (b := streamId) (i := 31) h3 1
    simpa using this.symm
  obtain ⟨b3, e3, w3⟩ := wrote_32 w2 (v := 0x80000000 ||| streamId) (by rw [hor]; omega)
  obtain ⟨b4, e4, w4⟩ := wrote_8 w3 h5
  have hand : streamId &&& 0x80000000 = 0 := by
    apply Nat.eq_of_testBit_eq
    intro i
    have e : (0x80000000 : Nat) = 2 ^ 31 := by norm_num
    rw [Nat.testBit_and, Nat.zero_testBit, e, Nat.testBit_two_pow]
    by_cases hi : 31 = i
    · subst hi
      rw [Nat.testBit_lt_two_pow h3, Bool.false_and]
    · simp [hi]
  refine ⟨b4, ?_, ?_⟩
  · simp only [boilerplate, bind, Except.bind, e1, e2, e3, hand, ne_eq, not_true_eq_false, if_false, e4]
  · simpa [headW, List.append_assoc] using w4

theorem frameLoop_spec (streamId allowed : Nat) (h3 : streamId < 2 ^ 31)
    (ha : 0 < allowed) (ha' : allowed < 2 ^ 16) (fuel : Nat) : ∀ (payload : List Nat) {b : BitBucket} {bits : List Bool},
    Wrote b bits → (∀ x ∈ payload, x < 256) → payload.length < fuel →
    ∃ b' more, frameLoop streamId allowed fuel b payload payload.length = .ok b' ∧
      Wrote b' (bits ++ headW (min payload.length allowed) 1 streamId 8 ++ bitsOf payload ++ more) ∧
      more.length % 8 = 0 ∧ (payload.length ≤ allowed → more = []) := by
  induction fuel with
  | zero => intro payload b bits _ _ h; omega
  | succ fuel ih =>
    intro payload b bits hw hp hf
    obtain ⟨b1, e1, w1⟩ := boilerplate_spec hw (len := min payload.length allowed) (flags := 1) (frameType := 8)
      (by omega) (by omega) h3 (by omega)
    obtain ⟨b2, e2, w2⟩ := wrote_bytes w1 payload hp
    have e2' : storeBits b1 payload (min payload.length allowed * 8) = .ok b2 := by
      rw [← e2]
      exact Delta2.storeBits_mod _ _ _ _ (by omega)
    by_cases hle : payload.length ≤ allowed
    · refine ⟨b2, [], ?_, by simpa using w2, rfl, fun _ => rfl⟩
      simp only [frameLoop, if_pos (Nat.min_le_left _ _), bind, Except.bind, e1, e2', if_pos hle]
    · have hl : payload.length - allowed = (payload.drop (min payload.length allowed)).length := by
        rw [List.length_drop]; omega
      obtain ⟨b3, more, e3, w3, hm, -⟩ := ih (payload.drop (min payload.length allowed)) w2
        (fun x hx => hp x (List.mem_of_mem_drop hx)) (by rw [← hl]; omega)
      refine ⟨b3, headW (min (payload.drop (min payload.length allowed)).length allowed) 1 streamId 8 ++
        bitsOf (payload.drop (min payload.length allowed)) ++ more, ?_, by simpa [List.append_assoc] using w3, ?_, fun h => absurd h hle⟩
      · simp only [frameLoop, if_pos (Nat.min_le_left _ _), bind, Except.bind, e1, e2', if_neg hle, hl, e3]
      · simp only [List.length_append, headW_len, bitsOf_length]
        omega

/-- All operations of a message can be packed. -/
def InstrsOk (g : Instrs) : Prop :=
  (∀ i ∈ g.toggl, i < 2 ^ 16) ∧ (∀ x ∈ g.clone, x.1 < 2 ^ 16 ∧ ∀ c ∈ x.2.1, c < 256) ∧
    ∀ x ∈ g.kvsto, (∀ c ∈ x.1, c < 256) ∧ ∀ c ∈ x.2.1, c < 256

theorem ranges_lt {l : List Nat} (h : ∀ i ∈ l, i < 2 ^ 16) : (∀ i ∈ (Delta1.toggleRanges l).ot, i < 2 ^ 16) ∧
    ∀ r ∈ (Delta1.toggleRanges l).otr, r.1 < 2 ^ 16 ∧ r.2 < 2 ^ 16 := by
  obtain ⟨hp, hle, -⟩ := Delta1.toggleRanges_spec l
  have hall : ∀ i ∈ (Delta1.toggleRanges l).all, i < 2 ^ 16 := fun i hi => h i (hp.mem_iff.1 hi)
  refine ⟨fun i hi => hall i (List.mem_append_left _ hi), fun r hr => ?_⟩
  have h2 : r.2 ∈ (Delta1.toggleRanges l).all := by
    refine List.mem_append_right _ (List.mem_flatMap.2 ⟨r, hr, ?_⟩)
    have := hle r hr
    simp only [Delta1.range, List.mem_map, List.mem_range]
    exact ⟨r.2 - r.1, by omega, by omega⟩
  have := hall _ h2
  have := hle r hr
  omega

/-- What is sent. -/
theorem wire_spec {h : Huffman} {codes : List (List Bool)} (hc : Codes h codes) (h257 : codes.length = 257)
    {g : Instrs} (hg : InstrsOk g) :
    ∃ bytes, opsToRealOps h g = .ok bytes ∧ (∀ x ∈ bytes, x < 256) ∧ (bytes.length ≤ 65536 → (payloadW codes g).length ≤ 8 * 65528) ∧
      ((payloadW codes g).length ≤ 8 * 65528 → bytes = pack (headW ((payloadW codes g).length / 8) 1 1234 8 ++ payloadW codes g)) := by
  obtain ⟨ht, htr⟩ := ranges_lt hg.1
  obtain ⟨p1, f1, v1⟩ := outputOps_writes hc h257 (opcode := 1) (by omega) ((Delta1.toggleRanges g.toggl).ot.map .toggl)
    (fun op hop => by obtain ⟨i, hi, rfl⟩ := List.mem_map.1 hop; exact ht i hi) wrote_empty
  obtain ⟨p2, f2, v2⟩ := outputOps_writes hc h257 (opcode := 2) (by omega) ((Delta1.toggleRanges g.toggl).otr.map fun x => .trang x.1 x.2)
    (fun op hop => by obtain ⟨i, hi, rfl⟩ := List.mem_map.1 hop; exact htr i hi) v1
  obtain ⟨p3, f3, v3⟩ := outputOps_writes hc h257 (opcode := 3) (by omega) (g.clone.map fun x => .clone x.1 x.2.1 x.2.2)
    (fun op hop => by obtain ⟨i, hi, rfl⟩ := List.mem_map.1 hop; exact hg.2.1 i hi) v2
  obtain ⟨b1, f4, w1⟩ := outputOps_writes hc h257 (opcode := 4) (by omega) (g.kvsto.map fun x => .kvsto x.1 x.2.1 x.2.2)
    (fun op hop => by obtain ⟨i, hi, rfl⟩ := List.mem_map.1 hop; exact hg.2.2 i hi) v3
  have hP : ([] ++ blockW codes 1 ((Delta1.toggleRanges g.toggl).ot.map .toggl) ++
    blockW codes 2 ((Delta1.toggleRanges g.toggl).otr.map fun x => .trang x.1 x.2) ++ blockW codes 3 (g.clone.map fun x => .clone x.1 x.2.1 x.2.2) ++
    blockW codes 4 (g.kvsto.map fun x => .kvsto x.1 x.2.1 x.2.2)) = payloadW codes g := by simp [payloadW]
  rw [hP] at w1
  have hP8 := payloadW_len codes g
  generalize payloadW codes g = P at w1 hP8 ⊢
  obtain ⟨o1, n1⟩ := wrote_out w1
  obtain ⟨b2, e2, w2⟩ := boilerplate_spec wrote_empty (len := 0) (flags := 0) (streamId := 0)
    (frameType := 0) (by omega) (by omega) (by omega) (by omega)
  have n2 : bytesOfStorage b2 = 8 := by
    have := (wrote_out w2).2
    simp only [List.nil_append, headW_len] at this
    rw [bytesOfStorage, this]
    rfl
  have hpl : (pack P).length = P.length / 8 := by rw [Delta2.pack_length]; omega
  have hlen : ((numBits b1 + 7) / 8).toNat = (pack P).length := by
    rw [n1, hpl]
    omega
  obtain ⟨b3, more, e3, w3, hm, hm0⟩ := frameLoop_spec 1234 65528 (by omega) (by omega) (by omega)
    ((pack P).length + 1) (pack P) wrote_empty (pack_lt P) (by omega)
  generalize hA : ([] ++ headW (min (pack P).length 65528) 1 1234 8 ++ bitsOf (pack P) ++ more) = A at w3
  obtain ⟨o3, n3⟩ := wrote_out w3
  obtain ⟨b4, e4, w4⟩ := wrote_store wrote_empty A
  obtain ⟨o4, n4⟩ := wrote_out w4
  rw [List.nil_append] at o4 n4 w4
  have ser : opsToRealOps h g = .ok (pack A) := by
    have : serialize h g 1234 = .ok (pack A, (A.length : Int)) := by
      simp only [serialize, bind, Except.bind, f1, f2, f3, f4, e2, n2, hlen, o1, pure, Except.pure]
      simp only [show (2 : Nat) ^ 16 - (8 : Int).toNat = 65528 from rfl, e3, o3, n3]
    simp only [opsToRealOps, bind, Except.bind, this, Int.toNat_natCast, e4, pure, Except.pure, o4]
  have hAl : A.length = 64 + 8 * (pack P).length + more.length := by
    rw [← hA]
    simp only [List.nil_append, List.length_append, headW_len, bitsOf_length]
  refine ⟨pack A, ser, pack_lt A, fun hfit => ?_, fun hfit => ?_⟩
  · rw [Delta2.pack_length] at hfit
    omega
  have := hm0 (by omega)
  subst this
  rw [← hA, Delta2.pack_bits P hP8, Nat.min_eq_left (by omega), hpl]
  simp

/-! ### Indices that are too large -/

theorem int_fails {b : BitBucket} {bits : List Bool} (h : Wrote b bits) {v : Nat} (hv : ¬ v < 2 ^ 16) :
    Delta2.packInt b 16 v = .error .standard ∨ Delta2.packInt b 16 v = .error .struct := by
  have := Delta2.packInt_spec 16 v (by omega) (by omega) h
  split at this
  · exact Or.inl this
  · rw [if_neg (by omega)] at this
    exact Or.inr this

theorem toggls_fail {h : Huffman} (is : List Nat) : (∃ i ∈ is, ¬ i < 2 ^ 16) → ∀ {b : BitBucket} {bits : List Bool}, Wrote b bits →
    writeOps h (is.map .toggl) b = .error .standard ∨ writeOps h (is.map .toggl) b = .error .struct := by
  induction is with
  | nil => rintro ⟨i, hi, -⟩; cases hi
  | cons i is ih =>
    rintro ⟨j, hj, hj'⟩ b bits hw
    by_cases hi : i < 2 ^ 16
    · obtain ⟨b1, e1, w1⟩ := Delta1.int_writes hw hi
      have : ∃ i ∈ is, ¬ i < 2 ^ 16 := by
        rcases List.mem_cons.1 hj with rfl | hj
        · exact absurd hi hj'
        · exact ⟨j, hj, hj'⟩
      simp only [List.map_cons, writeOps, writeOp, bind, Except.bind, e1]
      exact ih this w1
    · simp only [List.map_cons, writeOps, writeOp, bind, Except.bind]
      rcases int_fails hw hi with e | e <;> simp only [e] <;> simp

theorem trangs_fail {h : Huffman} (rs : List (Nat × Nat)) : (∃ r ∈ rs, ¬ r.2 < 2 ^ 16) → (∀ r ∈ rs, r.1 ≤ r.2) →
    ∀ {b : BitBucket} {bits : List Bool}, Wrote b bits →
    writeOps h (rs.map fun x => .trang x.1 x.2) b = .error .standard ∨ writeOps h (rs.map fun x => .trang x.1 x.2) b = .error .struct := by
  induction rs with
  | nil => rintro ⟨i, hi, -⟩; cases hi
  | cons i is ih =>
    rintro ⟨j, hj, hj'⟩ hle b bits hw
    by_cases hi : i.2 < 2 ^ 16
    · obtain ⟨b1, e1, w1⟩ := Delta1.int_writes hw hi
      obtain ⟨b2, e2, w2⟩ := Delta1.int_writes w1 (v := i.1) (by have := hle i (by simp); omega)
      have : ∃ i ∈ is, ¬ i.2 < 2 ^ 16 := by
        rcases List.mem_cons.1 hj with rfl | hj
        · exact absurd hi hj'
        · exact ⟨j, hj, hj'⟩
      simp only [List.map_cons, writeOps, writeOp, bind, Except.bind, e1, e2]
      exact ih this (fun r hr => hle r (by simp [hr])) w2
    · simp only [List.map_cons, writeOps, writeOp, bind, Except.bind]
      rcases int_fails hw hi with e | e <;> simp only [e] <;> simp

/-- A toggle with an index of more than 16 bits cannot be sent. -/
theorem wire_fails (h : Huffman) {g : Instrs} (hg : ∃ i ∈ g.toggl, ¬ i < 2 ^ 16) :
    opsToRealOps h g = .error .standard ∨ opsToRealOps h g = .error .struct := by
  obtain ⟨i, hi, hi'⟩ := hg
  obtain ⟨hp, hle, -⟩ := Delta1.toggleRanges_spec g.toggl
  have key : serialize h g 1234 = .error .standard ∨ serialize h g 1234 = .error .struct := by
    by_cases hot : ∃ i ∈ (Delta1.toggleRanges g.toggl).ot, ¬ i < 2 ^ 16
    · have h0 : ((Delta1.toggleRanges g.toggl).ot.map Op.toggl).length ≠ 0 := by
        obtain ⟨j, hj, -⟩ := hot
        rw [List.length_map]
        exact fun h => by rw [List.length_eq_zero_iff.1 h] at hj; cases hj
      obtain ⟨b1, e1, w1⟩ := wrote_8 wrote_empty (v := 1) (by omega)
      obtain ⟨b2, e2, w2⟩ := wrote_8 w1 (v := min 256 ((Delta1.toggleRanges g.toggl).ot.map Op.toggl).length - 1) (by omega)
      have : outputOps h 1 ((Delta1.toggleRanges g.toggl).ot.map .toggl) BitBucket.empty = .error .standard ∨
          outputOps h 1 ((Delta1.toggleRanges g.toggl).ot.map .toggl) BitBucket.empty = .error .struct := by
        simp only [outputOps, if_neg h0, bind, Except.bind, e1, e2]
        exact toggls_fail _ hot w2
      simp only [serialize, bind, Except.bind]
      rcases this with e | e <;> simp only [e] <;> simp
    · have hot' : ∀ i ∈ (Delta1.toggleRanges g.toggl).ot, i < 2 ^ 16 := by
        intro j hj
        by_contra hc
        exact hot ⟨j, hj, hc⟩
      have hr : ∃ r ∈ (Delta1.toggleRanges g.toggl).otr, ¬ r.2 < 2 ^ 16 := by
        rcases List.mem_append.1 (hp.mem_iff.2 hi) with hm | hm
        · exact absurd (hot' i hm) hi'
        · obtain ⟨r, hr, hm⟩ := List.mem_flatMap.1 hm
          refine ⟨r, hr, ?_⟩
          simp only [Delta1.range, List.mem_map, List.mem_range] at hm
          obtain ⟨x, hx, rfl⟩ := hm
          omega
      have hw1 : ∃ b1 bits, outputOps h 1 ((Delta1.toggleRanges g.toggl).ot.map .toggl) BitBucket.empty = .ok b1 ∧ Wrote b1 bits := by
        unfold outputOps
        split
        · exact ⟨_, _, rfl, wrote_empty⟩
        · obtain ⟨b1, e1, w1⟩ := wrote_8 wrote_empty (v := 1) (by omega)
          obtain ⟨b2, e2, w2⟩ := wrote_8 w1 (v := min 256 ((Delta1.toggleRanges g.toggl).ot.map Op.toggl).length - 1) (by omega)
          have : ∀ (is : List Nat), (∀ i ∈ is, i < 2 ^ 16) → ∀ {b : BitBucket} {bits : List Bool}, Wrote b bits →
              ∃ b' bits', writeOps h (is.map .toggl) b = .ok b' ∧ Wrote b' bits' := by
            intro is
            induction is with
            | nil => intro _ b bits hw; exact ⟨b, bits, rfl, hw⟩
            | cons i is ih =>
              intro hlt b bits hw
              obtain ⟨b1, e1, w1⟩ := Delta1.int_writes hw (hlt i (by simp))
              obtain ⟨b2, bits2, e2, w2⟩ := ih (fun j hj => hlt j (by simp [hj])) w1
              exact ⟨b2, bits2, by simp only [List.map_cons, writeOps, writeOp, bind, Except.bind, e1, e2], w2⟩
          obtain ⟨b3, bits3, e3, w3⟩ := this _ hot' w2
          exact ⟨b3, bits3, by simp only [bind, Except.bind, e1, e2, e3], w3⟩
      obtain ⟨b1, bits, e1, w1⟩ := hw1
      have h0 : ((Delta1.toggleRanges g.toggl).otr.map fun x => Op.trang x.1 x.2).length ≠ 0 := by
        obtain ⟨j, hj, -⟩ := hr
        rw [List.length_map]
        exact fun h => by rw [List.length_eq_zero_iff.1 h] at hj; cases hj
      obtain ⟨b2, e2, w2⟩ := wrote_8 w1 (v := 2) (by omega)
      obtain ⟨b3, e3, w3⟩ := wrote_8 w2 (v := min 256 ((Delta1.toggleRanges g.toggl).otr.map fun x => Op.trang x.1 x.2).length - 1) (by omega)
      have : outputOps h 2 ((Delta1.toggleRanges g.toggl).otr.map fun x => .trang x.1 x.2) b1 = .error .standard ∨
          outputOps h 2 ((Delta1.toggleRanges g.toggl).otr.map fun x => .trang x.1 x.2) b1 = .error .struct := by
        simp only [outputOps, if_neg h0, bind, Except.bind, e2, e3]
        exact trangs_fail _ hr hle w3
      simp only [serialize, bind, Except.bind, e1]
      rcases this with e | e <;> simp only [e] <;> simp
  simp only [opsToRealOps, bind, Except.bind]
  rcases key with e | e <;> simp only [e] <;> simp

end Verif.DeltaBohe
