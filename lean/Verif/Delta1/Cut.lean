import Verif.Delta1.WireLemmas
import Verif.Delta2.Cut
/-
What delta's deserialiser makes of a frame that has been cut off.
-/
namespace Verif.Delta1
open Verif Verif.Bits Verif.Bits.Spec Verif.Huff Verif.Huff.Spec Verif.Delta2

theorem getBits_short {b : BitBucket} {pre rest : List Bool} (h : At b pre rest) {n : Nat} (hn : rest.length < n) :
    getBits b n = .error .standard := by
  have hr := at_remaining h
  unfold bitsRemaining at hr
  unfold getBits
  rw [if_pos (by omega)]

theorem int_short {b : BitBucket} {pre rest : List Bool} (h : At b pre rest) (hn : rest.length < 16) :
    unpackInt b 16 = .error .standard := by
  simp only [unpackInt, bind, Except.bind, getBits_short h hn]

theorem str_short {h : Huffman} {codes : List (List Bool)} (hc : Codes h codes) (h257 : codes.length = 257) {s : Str}
    (hs : ∀ c ∈ s, c < 256) {b : BitBucket} {pre x : List Bool} (ha : At b pre x) (h8 : pre.length % 8 = 0)
    (hx : x.length % 8 = 0) (hp : x <+: strB codes s) (hl : x.length < (strB codes s).length) :
    unpackStr (some h) true true b = .error .standard := by
  have hE : strB codes s = Delta2.strE codes s pre.length := strE_aligned codes s 0 pre.length (by omega)
  rw [hE] at hp hl
  exact Delta2.str_short ⟨⟨h, rfl, hc⟩, h257⟩ hs b pre x ha hp hl (by omega)

theorem op_short {h : Huffman} {codes : List (List Bool)} (hc : Codes h codes) (h257 : codes.length = 257) {op : Op}
    (ho : OpOk op) {b : BitBucket} {pre x : List Bool} (ha : At b pre x) (h8 : pre.length % 8 = 0)
    (hx : x.length % 8 = 0) (hp : x <+: opB codes op) (hl : x.length < (opB codes op).length) :
    readOp h b op.opcode = .error .standard := by
  cases op with
  | toggl i =>
    simp only [opB, natBits_length] at hl
    simp only [readOp, Op.opcode, bind, Except.bind, int_short ha hl]
  | trang s l =>
    simp only [opB, List.length_append, natBits_length] at hp hl
    rcases prefix_append_cases hp with ⟨hl', _⟩ | ⟨y, rfl, _⟩
    · rw [natBits_length] at hl'
      simp only [readOp, Op.opcode, bind, Except.bind, int_short ha hl']
    · obtain ⟨b1, e1, w1⟩ := int_reads ho.2 ha
      simp only [List.length_append, natBits_length] at hl
      simp only [readOp, Op.opcode, bind, Except.bind, e1, int_short w1 (by omega)]
  | clone k v =>
    simp only [opB, List.length_append, natBits_length] at hp hl
    rcases prefix_append_cases hp with ⟨hl', _⟩ | ⟨y, rfl, hp'⟩
    · rw [natBits_length] at hl'
      simp only [readOp, Op.opcode, bind, Except.bind, int_short ha hl']
    · obtain ⟨b1, e1, w1⟩ := int_reads ho.1 ha
      simp only [List.length_append, natBits_length] at hl hx
      have e2 := str_short hc h257 ho.2 w1 (by simp; omega) (by omega) hp' (by omega)
      simp only [readOp, Op.opcode, bind, Except.bind, e1, e2]
  | kvsto k v =>
    simp only [opB, List.length_append] at hp hl
    have hk := strB_len codes k
    rcases prefix_append_cases hp with ⟨hl', hp'⟩ | ⟨y, rfl, hp'⟩
    · simp only [readOp, Op.opcode, bind, Except.bind, str_short hc h257 ho.1 ha h8 hx hp' hl']
    · obtain ⟨b1, e1, w1⟩ := str_reads hc h257 ho.1 h8 ha
      simp only [List.length_append] at hl hx
      have e2 := str_short hc h257 ho.2 w1 (by rw [List.length_append]; omega) (by omega) hp' (by omega)
      simp only [readOp, Op.opcode, bind, Except.bind, e1, e2]
  | eref k v =>
    simp only [opB, List.length_append] at hp hl
    have hk := strB_len codes k
    rcases prefix_append_cases hp with ⟨hl', hp'⟩ | ⟨y, rfl, hp'⟩
    · simp only [readOp, Op.opcode, bind, Except.bind, str_short hc h257 ho.1 ha h8 hx hp' hl']
    · obtain ⟨b1, e1, w1⟩ := str_reads hc h257 ho.1 h8 ha
      simp only [List.length_append] at hl hx
      have e2 := str_short hc h257 ho.2 w1 (by rw [List.length_append]; omega) (by omega) hp' (by omega)
      simp only [readOp, Op.opcode, bind, Except.bind, e1, e2]

theorem ops_short {h : Huffman} {codes : List (List Bool)} (hc : Codes h codes) (h257 : codes.length = 257) (oc : Opcode)
    (ops : List Op) : (∀ op ∈ ops, OpOk op) → (∀ op ∈ ops, op.opcode = oc) → ∀ (acc : List Op) {b : BitBucket}
    {pre x : List Bool}, At b pre x → pre.length % 8 = 0 → x.length % 8 = 0 → x <+: opsB codes ops →
    x.length < (opsB codes ops).length → readOps h oc ops.length b acc = .error .standard := by
  induction ops with
  | nil => intro _ _ acc b pre x _ _ _ _ hl; simp [opsB] at hl
  | cons op ops ih =>
    intro ho hoc acc b pre x ha h8 hx hp hl
    simp only [opsB, List.flatMap_cons] at hp hl
    have hb := opB_len codes op
    have hoc' := hoc op (by simp)
    rcases prefix_append_cases hp with ⟨hl', hp'⟩ | ⟨y, rfl, hp'⟩
    · have e := op_short hc h257 (ho op (by simp)) ha h8 hx hp' hl'
      rw [hoc'] at e
      simp only [List.length_cons, readOps, bind, Except.bind, e]
    · obtain ⟨b1, e1, w1⟩ := op_reads hc h257 (ho op (by simp)) h8 ha
      simp only [List.length_append] at hl hx
      have e2 := ih (fun o h => ho o (by simp [h])) (fun o h => hoc o (by simp [h])) (acc ++ [op]) w1
        (by rw [List.length_append]; omega) (by omega) hp' (by unfold opsB; omega)
      rw [hoc'] at e1
      simp only [List.length_cons, readOps, bind, Except.bind, e1, e2]

theorem block_short {h : Huffman} {codes : List (List Bool)} (hc : Codes h codes) (h257 : codes.length = 257) (oc : Opcode)
    (ops : List Op) (hpos : 0 < ops.length) (hle : ops.length ≤ 256) (ho : ∀ op ∈ ops, OpOk op)
    (hoc : ∀ op ∈ ops, op.opcode = oc) (acc : List Op) {b : BitBucket} {pre x : List Bool} (ha : At b pre x)
    (h8 : pre.length % 8 = 0) (hx : x.length % 8 = 0)
    (hp : x <+: natBits 8 oc.val ++ (natBits 8 (ops.length - 1) ++ opsB codes ops))
    (hl : x.length < 16 + (opsB codes ops).length) : readBlock h b acc = .error .standard := by
  rcases prefix_append_cases hp with ⟨hl', _⟩ | ⟨y, rfl, hp1⟩
  · rw [natBits_length] at hl'
    simp only [readBlock, bind, Except.bind, at_8_short ha hl']
  obtain ⟨b1, e1, w1⟩ := at_8 (val_lt oc) ha
  rcases prefix_append_cases hp1 with ⟨hl', _⟩ | ⟨z, rfl, hp2⟩
  · rw [natBits_length] at hl'
    simp only [readBlock, bind, Except.bind, e1, at_8_short w1 hl']
  obtain ⟨b2, e2, w2⟩ := at_8 (by omega) w1
  simp only [List.length_append, natBits_length] at hl hx
  have e3 := ops_short hc h257 oc ops ho hoc acc w2 (by simp only [List.length_append, natBits_length]; omega) (by omega)
    hp2 (by omega)
  have : ops.length - 1 + 1 = ops.length := by omega
  simp only [readBlock, bind, Except.bind, e1, e2, opcodeOf_val, this, e3]

theorem blocks_short {h : Huffman} {codes : List (List Bool)} (hc : Codes h codes) (h257 : codes.length = 257)
    (gs : List (Opcode × List Op)) : GroupsOk gs → (∀ g ∈ gs, g.2.length ≤ 256) → ∀ (fuel : Nat) (acc : List Op)
    {b : BitBucket} {pre x : List Bool}, At b pre x → pre.length % 8 = 0 → x.length % 8 = 0 → x <+: payloadB codes gs →
    x.length < (payloadB codes gs).length → x.length < fuel →
    readBlocks h fuel b (payloadB codes gs).length acc = .error .standard := by
  induction gs with
  | nil => intro _ _ fuel acc b pre x _ _ _ _ hl; simp [payloadB] at hl
  | cons g gs ih =>
    intro hg hle fuel acc b pre x ha h8 hx hp hl hf
    obtain ⟨oc, ops⟩ := g
    have hle' := hle (oc, ops) (by simp)
    simp only at hle'
    by_cases h0 : ops.length = 0
    · have h0' := List.length_eq_zero_iff.1 h0
      subst h0'
      have hE : payloadB codes ((oc, []) :: gs) = payloadB codes gs := by simp [payloadB, blockB]
      rw [hE] at hp hl ⊢
      exact ih (fun g hm => hg g (by simp [hm])) (fun g hm => hle g (by simp [hm])) fuel acc ha h8 hx hp hl hf
    · have hB : blockB codes (oc, ops) = natBits 8 oc.val ++ (natBits 8 (ops.length - 1) ++ opsB codes ops) := by
        unfold blockB
        rw [if_neg h0, Nat.min_eq_right hle', List.append_assoc]
      have hE : payloadB codes ((oc, ops) :: gs) = blockB codes (oc, ops) ++ payloadB codes gs := by simp [payloadB]
      rw [hE] at hp hl ⊢
      have hbl := blockB_len codes (oc, ops)
      have hops := fun op ho => (hg (oc, ops) (by simp) op ho).2
      have hocs := fun op ho => (hg (oc, ops) (by simp) op ho).1
      have h16 : 16 < (blockB codes (oc, ops)).length := by
        have hne : ops ≠ [] := by
          intro h
          simp [h] at h0
        obtain ⟨op, ops', rfl⟩ := List.exists_cons_of_ne_nil hne
        have := opB_pos hc h257 (hops op (by simp))
        rw [hB]
        simp only [opsB, List.flatMap_cons, List.length_append, natBits_length]
        omega
      obtain ⟨fuel, rfl⟩ : ∃ k, fuel = k + 1 := ⟨fuel - 1, by omega⟩
      unfold readBlocks
      rw [if_pos (by simp only [List.length_append]; omega)]
      rcases prefix_append_cases hp with ⟨hl', hp'⟩ | ⟨y, rfl, hp'⟩
      · have hl2 : x.length < 16 + (opsB codes ops).length := by
          rw [hB] at hl'
          simp only [List.length_append, natBits_length] at hl'
          omega
        rw [hB] at hp'
        have e := block_short hc h257 oc ops (by omega) hle' hops hocs acc ha h8 hx hp' hl2
        simp only [bind, Except.bind, e]
      · have ha' := ha
        rw [hB] at ha'
        simp only [List.append_assoc] at ha'
        obtain ⟨b1, e1, w1⟩ := block_read hc h257 oc ops (by omega) hle' hops hocs acc h8 ha'
        have r1 := at_remaining ha
        have r2 := at_remaining w1
        have w1' : At b1 (pre ++ blockB codes (oc, ops)) y := by
          rw [hB]
          simpa using w1
        simp only [List.length_append] at r1 hx hl hf
        have hlen : ((blockB codes (oc, ops) ++ payloadB codes gs).length : Int) - (bitsRemaining b - bitsRemaining b1) =
            (payloadB codes gs).length := by
          simp only [List.length_append]
          omega
        have e2 := ih (fun g hm => hg g (by simp [hm])) (fun g hm => hle g (by simp [hm])) fuel (acc ++ ops) w1'
          (by rw [List.length_append]; omega) (by omega) hp' (by omega) (by omega)
        simp only [bind, Except.bind, e1, hlen, e2]

/-! ### Frames -/

/-- The bytes of operations. -/
theorem wire_bits {h : Huffman} {codes : List (List Bool)} (hc : Codes h codes) (h257 : codes.length = 257)
    (gs : List (Opcode × List Op)) (hg : GroupsOk gs) (gid : Nat) (hid : gid < 256) :
    ∃ bytes more, opsToRealOps h gs gid = .ok bytes ∧ (∀ x ∈ bytes, x < 256) ∧
      bitsOf bytes = headB (min ((payloadB codes gs).length / 8) 65527) 1 1234 gid 8 ++ (payloadB codes gs ++ more) ∧
      ((payloadB codes gs).length ≤ 8 * 65527 → more = []) ∧ (8 * 65527 < (payloadB codes gs).length → 72 ≤ more.length) := by
  obtain ⟨b1, e1, w1⟩ := outputAll_writes hc h257 gs hg wrote_empty
  have hP8 := payloadB_len codes gs
  rw [List.nil_append] at w1
  generalize payloadB codes gs = P at w1 hP8 ⊢
  obtain ⟨o1, n1⟩ := wrote_out w1
  obtain ⟨b2, e2, w2⟩ := boilerplate_spec wrote_empty (len := 0) (flags := 0) (streamId := 0) (groupId := gid)
    (frameType := 0) (by omega) (by omega) (by omega) (by omega) (by omega)
  have n2 : bytesOfStorage b2 = 9 := by
    have := (wrote_out w2).2
    simp only [List.nil_append, headB_len] at this
    rw [bytesOfStorage, this]
    rfl
  have hpl : (pack P).length = P.length / 8 := by rw [pack_length]; omega
  have hlen : ((numBits b1 + 7) / 8).toNat = (pack P).length := by
    rw [n1, hpl]
    omega
  obtain ⟨b3, more, e3, w3, hm, hm0, hm1⟩ := frameLoop_spec 1234 gid 65527 (by omega) (by omega) (by omega) (by omega)
    ((pack P).length + 1) (pack P) wrote_empty (pack_lt P) (by omega)
  rw [hpl, pack_bits P hP8, List.nil_append, List.append_assoc] at w3
  generalize hA : headB (min (P.length / 8) 65527) 1 1234 gid 8 ++ (P ++ more) = A at w3
  have hA8 : A.length % 8 = 0 := by
    rw [← hA]
    simp only [List.length_append, headB_len]
    omega
  obtain ⟨o3, n3⟩ := wrote_out w3
  obtain ⟨b4, e4, w4⟩ := wrote_store wrote_empty A
  obtain ⟨o4, n4⟩ := wrote_out w4
  rw [List.nil_append] at o4 n4 w4
  refine ⟨pack A, more, ?_, pack_lt A, by rw [pack_bits A hA8, hA], fun h => hm0 (by omega), fun h => hm1 (by omega)⟩
  have : serialize h gs 1234 gid = .ok (pack A, (A.length : Int)) := by
    simp only [serialize, bind, Except.bind, e1, e2, n2, hlen, o1, pure, Except.pure]
    simp only [show (2 : Nat) ^ 16 - (9 : Int).toNat = 65527 from rfl, e3, o3, n3]
  simp only [opsToRealOps, bind, Except.bind, this, Int.toNat_natCast, e4, pure, Except.pure, o4]

theorem deserialize_bits (h : Huffman) (bytes : List Nat) (hb : ∀ x ∈ bytes, x < 256) :
    ∃ b, Wrote b (bitsOf bytes) ∧ realOpsToOps h bytes = readFrames h (b.output.length + 1) b [] := by
  obtain ⟨b1, e1, w1⟩ := wrote_bytes wrote_empty bytes hb
  rw [List.nil_append] at w1
  obtain ⟨o1, n1⟩ := wrote_out w1
  obtain ⟨b2, e2, w2⟩ := wrote_store wrote_empty (bitsOf bytes)
  rw [List.nil_append] at w2
  refine ⟨b2, w2, ?_⟩
  have h5 : storeBits BitBucket.empty b1.output (numBits b1).toNat = .ok b2 := by
    rw [o1, n1, Int.toNat_natCast]
    exact e2
  rw [Nat.mul_comm] at e1
  simp only [realOpsToOps, deserialize, bind, Except.bind, e1, h5]

/-- A frame that has been cut off. -/
theorem wire_cut {h : Huffman} {codes : List (List Bool)} (hc : Codes h codes) (h257 : codes.length = 257)
    (gs : List (Opcode × List Op)) (hg : GroupsOk gs) (hle : ∀ g ∈ gs, g.2.length ≤ 256) (gid : Nat) (hid : gid < 256)
    (hfit : (payloadB codes gs).length ≤ 8 * 65527) (bytes : List Nat) (hbytes : opsToRealOps h gs gid = .ok bytes)
    (n : Nat) (hn : n < bytes.length) : realOpsToOps h (bytes.take n) = .error .standard := by
  obtain ⟨bytes', more, e, hlt, hbits, hmore, -⟩ := wire_bits hc h257 gs hg gid hid
  rw [hbytes] at e
  cases e
  have hmin : min ((payloadB codes gs).length / 8) 65527 = (payloadB codes gs).length / 8 := by omega
  rw [hmore hfit, List.append_nil, hmin] at hbits
  have hblen : 8 * bytes.length = (bitsOf bytes).length := by rw [bitsOf_length]
  obtain ⟨b, w, er⟩ := deserialize_bits h (bytes.take n) (fun x hx => hlt x (List.mem_of_mem_take hx))
  have hst := w.start
  have hxl : (bitsOf (bytes.take n)).length = 8 * n := by rw [bitsOf_length, List.length_take]; omega
  have hxp : bitsOf (bytes.take n) <+: bitsOf bytes := by rw [bitsOf_take]; exact List.take_prefix _ _
  rw [hbits] at hxp
  rw [er]
  generalize hx : bitsOf (bytes.take n) = x at hst hxl hxp
  have hP8 := payloadB_len codes gs
  have key := fun fuel b pre x => blocks_short hc h257 gs hg hle fuel [] (b := b) (pre := pre) (x := x)
  generalize hP : payloadB codes gs = P at *
  rw [hbits] at hblen
  simp only [List.length_append, headB_len] at hblen
  simp only [headB, List.append_assoc] at hxp
  rcases prefix_append_cases hxp with ⟨hl, _⟩ | ⟨x1, rfl, hxp1⟩
  · rw [natBits_length] at hl
    simp only [readFrames, bind, Except.bind, at_16_short hst hl]
  obtain ⟨c1, f1, a1⟩ := at_16 (by omega) hst
  rcases prefix_append_cases hxp1 with ⟨hl, _⟩ | ⟨x2, rfl, hxp2⟩
  · rw [natBits_length] at hl
    simp only [readFrames, bind, Except.bind, f1, at_8_short a1 hl]
  obtain ⟨c2, f2, a2⟩ := at_8 (by omega) a1
  rcases prefix_append_cases hxp2 with ⟨hl, _⟩ | ⟨x3, rfl, hxp3⟩
  · rw [natBits_length] at hl
    simp only [readFrames, bind, Except.bind, f1, f2, at_32_short a2 hl]
  obtain ⟨c3, f3, a3⟩ := at_32 (by decide) a2
  rcases prefix_append_cases hxp3 with ⟨hl, _⟩ | ⟨x4, rfl, hxp4⟩
  · rw [natBits_length] at hl
    simp only [readFrames, bind, Except.bind, f1, f2, f3, at_8_short a3 hl]
  obtain ⟨c4, f4, a4⟩ := at_8 (by omega) a3
  rcases prefix_append_cases hxp4 with ⟨hl, _⟩ | ⟨x5, rfl, hxp5⟩
  · rw [natBits_length] at hl
    simp only [readFrames, bind, Except.bind, f1, f2, f3, f4, at_8_short a4 hl]
  obtain ⟨c5, f5, a5⟩ := at_8 (by omega) a4
  simp only [List.length_append, natBits_length] at hxl
  have hlen := a5.bits.length
  simp only [List.length_append, List.length_nil, natBits_length] at hlen
  have e := key (8 * c5.output.length) c5 _ x5 a5 (by simp) (by omega) hxp5 (by omega) (by omega)
  have h8 : P.length / 8 * 8 = P.length := by omega
  simp only [readFrames, bind, Except.bind, f1, f2, f3, f4, f5, h8, e]

/-- The payload of a message and a frame header before it are all that is read. -/
theorem wire_rest {h : Huffman} {codes : List (List Bool)} (hc : Codes h codes) (h257 : codes.length = 257)
    (gs : List (Opcode × List Op)) (hg : GroupsOk gs) (hle : ∀ g ∈ gs, g.2.length ≤ 256) (gid : Nat) (hid : gid < 256)
    (bytes : List Nat) (hbytes : opsToRealOps h gs gid = .ok bytes) (hbig : 65536 < bytes.length) : ∃ m, m + 9 ≤ bytes.length ∧
      ∀ n, m ≤ n → realOpsToOps h (bytes.take n) = realOpsToOps h bytes := by
  obtain ⟨bytes', more, e, hlt, hbits, hm0, hm1⟩ := wire_bits hc h257 gs hg gid hid
  rw [hbytes] at e
  cases e
  have hP8 := payloadB_len codes gs
  have key : ∀ (l : List Nat), (∀ x ∈ l, x < 256) → ∀ rest, bitsOf l =
      headB (min ((payloadB codes gs).length / 8) 65527) 1 1234 gid 8 ++ (payloadB codes gs ++ rest) →
      realOpsToOps h l = .ok (gid, taken codes gs (min (payloadB codes gs).length (8 * 65527) : Nat)) := by
    intro l hl rest hb
    obtain ⟨b, w, er⟩ := deserialize_bits h l hl
    have hst := w.start
    rw [hb] at hst
    simp only [headB, List.append_assoc] at hst
    obtain ⟨c1, f1, a1⟩ := at_16 (by omega) hst
    obtain ⟨c2, f2, a2⟩ := at_8 (by omega) a1
    obtain ⟨c3, f3, a3⟩ := at_32 (by decide) a2
    obtain ⟨c4, f4, a4⟩ := at_8 (by omega) a3
    obtain ⟨c5, f5, a5⟩ := at_8 (by omega) a4
    have hlen := at_len a5
    simp only [List.length_append] at hlen
    obtain ⟨b', e⟩ := blocks_taken hc h257 gs hg hle (8 * c5.output.length) []
      (min (payloadB codes gs).length (8 * 65527) : Nat) (by simp) a5 (by omega) (by omega)
    have h8 : (min ((payloadB codes gs).length / 8) 65527 * 8 : Nat) = min (payloadB codes gs).length (8 * 65527) := by omega
    rw [er]
    simp only [readFrames, bind, Except.bind, f1, f2, f3, f4, f5, h8, e, if_neg (show ¬ (1 : Nat) = 0 by omega), pure,
      Except.pure, List.nil_append]
  have hl : (headB (min ((payloadB codes gs).length / 8) 65527) 1 1234 gid 8).length = 72 := headB_len _ _ _ _ _
  have hbl := congrArg List.length hbits
  simp only [bitsOf_length, List.length_append, headB_len] at hbl
  have hlarge : 8 * 65527 < (payloadB codes gs).length := by
    by_contra hc
    have := hm0 (by omega)
    subst this
    simp only [List.length_nil] at hbl
    omega
  have := hm1 hlarge
  refine ⟨9 + (payloadB codes gs).length / 8, by omega, fun n hn => ?_⟩
  rw [key bytes hlt more hbits]
  refine key _ (fun x hx => hlt x (List.mem_of_mem_take hx)) (more.take (8 * n - 72 - (payloadB codes gs).length)) ?_
  rw [bitsOf_take, hbits, List.take_append, hl, List.take_of_length_le (by omega), List.take_append,
    List.take_of_length_le (by omega)]

end Verif.Delta1
