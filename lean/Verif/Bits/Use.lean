import Verif.Bits.Run
/-
The bit bucket as a stream: what has been read, and what follows.
-/
namespace Verif.Bits
open Verif Verif.Bits.Spec

/-- The bucket holds `pre` followed by `rest`, and `pre` has been read. -/
def At (b : BitBucket) (pre rest : List Bool) : Prop := Holds b ⟨pre ++ rest, pre.length⟩

theorem At.bits {b : BitBucket} {pre rest : List Bool} (h : At b pre rest) : Rep b (pre ++ rest) := h.rep

theorem at_get {b : BitBucket} {pre x rest : List Bool} (h : At b pre (x ++ rest)) :
    ∃ b', getBits b x.length = .ok (b', pack x) ∧ At b' (pre ++ x) rest := by
  obtain ⟨b', he, hh⟩ := (holds_get h x.length).2 (by simp)
  refine ⟨b', ?_, ?_⟩
  · rw [he]
    simp
  · simpa [At] using hh

theorem at_short {b : BitBucket} {pre rest : List Bool} (h : At b pre rest) {n : Nat} (hn : rest.length < n) :
    getBits b n = .error .standard := (holds_get h n).1 (by simpa using hn)

theorem at_op {b : BitBucket} {pre x rest : List Bool} (h : At b pre (x ++ rest)) (op : Op)
    (f : BitBucket → Py (BitBucket × Nat)) (hf : ∀ b, call b op = applyNum b (f b))
    (hs : ∀ t, step t op = t.read x.length fun l => .num (toNat l)) (hop : op.Ok) :
    ∃ b', f b = .ok (b', toNat x) ∧ At b' (pre ++ x) rest := by
  obtain ⟨h1, h2⟩ := call_sim h op hop
  rw [hf, hs] at h1 h2
  simp only [Tape.read, List.length_append, List.drop_left, List.take_left] at h1 h2
  rw [if_pos (by omega)] at h1 h2
  cases hfb : f b with
  | error e => rw [hfb] at h1; simp [applyNum] at h1
  | ok r =>
    obtain ⟨b', v⟩ := r
    rw [hfb] at h1 h2
    simp only [applyNum, Res.num.injEq] at h1 h2
    refine ⟨b', by rw [h1], ?_⟩
    simpa [At] using h2

theorem at_op_short {b : BitBucket} {pre rest : List Bool} (h : At b pre rest) (op : Op) (n : Nat)
    (f : BitBucket → Py (BitBucket × Nat)) (hf : ∀ b, call b op = applyNum b (f b))
    (hs : ∀ t, step t op = t.read n fun l => .num (toNat l)) (hop : op.Ok) (hn : rest.length < n) :
    f b = .error .standard := by
  obtain ⟨h1, h2⟩ := call_sim h op hop
  rw [hf, hs] at h1
  simp only [Tape.read, List.length_append] at h1
  rw [if_neg (by omega)] at h1
  cases hfb : f b with
  | error e => rw [hfb] at h1; simp only [applyNum, Res.raised.injEq] at h1; rw [h1]
  | ok r => rw [hfb] at h1; simp [applyNum] at h1

theorem at_bit {b : BitBucket} {pre rest : List Bool} {x : Bool} (h : At b pre (x :: rest)) :
    ∃ b', getBit b = .ok (b', x.toNat) ∧ At b' (pre ++ [x]) rest := by
  have := at_op (x := [x]) h .getBit getBit (fun _ => rfl) (fun _ => rfl) trivial
  simpa [toNat] using this

theorem at_4 {b : BitBucket} {pre rest : List Bool} {v : Nat} (hv : v < 2 ^ 4) (h : At b pre (natBits 4 v ++ rest)) :
    ∃ b', getBits4 b = .ok (b', v) ∧ At b' (pre ++ natBits 4 v) rest := by
  have := at_op (x := natBits 4 v) h .get4 getBits4 (fun _ => rfl) (fun _ => by simp [step]) trivial
  rw [toNat_natBits, Nat.mod_eq_of_lt hv] at this
  exact this

theorem at_8 {b : BitBucket} {pre rest : List Bool} {v : Nat} (hv : v < 2 ^ 8) (h : At b pre (natBits 8 v ++ rest)) :
    ∃ b', getBits8 b = .ok (b', v) ∧ At b' (pre ++ natBits 8 v) rest := by
  have := at_op (x := natBits 8 v) h .get8 getBits8 (fun _ => rfl) (fun _ => by simp [step]) trivial
  rw [toNat_natBits, Nat.mod_eq_of_lt hv] at this
  exact this

theorem at_16 {b : BitBucket} {pre rest : List Bool} {v : Nat} (hv : v < 2 ^ 16) (h : At b pre (natBits 16 v ++ rest)) :
    ∃ b', getBits16 b = .ok (b', v) ∧ At b' (pre ++ natBits 16 v) rest := by
  have := at_op (x := natBits 16 v) h .get16 getBits16 (fun _ => rfl) (fun _ => by simp [step]) trivial
  rw [toNat_natBits, Nat.mod_eq_of_lt hv] at this
  exact this

theorem at_32 {b : BitBucket} {pre rest : List Bool} {v : Nat} (hv : v < 2 ^ 32) (h : At b pre (natBits 32 v ++ rest)) :
    ∃ b', getBits32 b = .ok (b', v) ∧ At b' (pre ++ natBits 32 v) rest := by
  have := at_op (x := natBits 32 v) h .get32 getBits32 (fun _ => rfl) (fun _ => by simp [step]) trivial
  rw [toNat_natBits, Nat.mod_eq_of_lt hv] at this
  exact this

theorem at_8_short {b : BitBucket} {pre rest : List Bool} (h : At b pre rest) (hn : rest.length < 8) :
    getBits8 b = .error .standard :=
  at_op_short h .get8 8 getBits8 (fun _ => rfl) (fun _ => rfl) trivial hn

theorem at_advance {b : BitBucket} {pre rest : List Bool} (h : At b pre (padZeros pre.length ++ rest)) :
    At (advanceReadPtr b) (pre ++ padZeros pre.length) rest := by
  obtain ⟨_, h2⟩ := call_sim h .advance trivial
  simp only [call, step] at h2
  have hl : (padZeros pre.length).length = (8 - pre.length % 8) % 8 := by simp [padZeros]
  unfold At
  rw [List.append_assoc, List.length_append, hl]
  exact h2

theorem at_remaining {b : BitBucket} {pre rest : List Bool} (h : At b pre rest) :
    bitsRemaining b = (rest.length : Int) - 1 := by
  have h1 := h.rep.numBits
  have h2 := h.pos
  simp only [List.length_append] at h1 h2
  unfold bitsRemaining
  rw [h1]
  push_cast
  omega

theorem at_consumed {b : BitBucket} {pre rest : List Bool} (h : At b pre rest) :
    allConsumed b = decide (rest = []) := by
  have h1 := h.rep.numBits
  have h2 := h.pos
  simp only [List.length_append] at h1 h2
  unfold allConsumed
  rw [h1]
  rw [Bool.eq_iff_iff]
  simp only [decide_eq_true_eq]
  rw [← List.length_eq_zero_iff]
  push_cast
  omega

/-- The bucket holds exactly these bits, and nothing has been read. -/
def Wrote (b : BitBucket) (bits : List Bool) : Prop := Holds b ⟨bits, 0⟩

theorem wrote_empty : Wrote BitBucket.empty [] := holds_empty

theorem Wrote.start {b : BitBucket} {bits : List Bool} (h : Wrote b bits) : At b [] bits := h

theorem pack_lt (l : List Bool) : ∀ b ∈ pack l, b < 256 := by
  induction h : l.length using Nat.strongRecOn generalizing l with
  | ind n ih =>
    subst h
    by_cases h8 : l.length ≤ 8
    · by_cases h0 : l = []
      · subst h0; simp [pack]
      · rw [pack_small l h0 h8]
        intro b hb
        rw [List.mem_singleton.1 hb]
        have := toNat_lt (l ++ List.replicate (8 - l.length) false)
        rw [List.length_append, List.length_replicate, show l.length + (8 - l.length) = 8 by omega] at this
        exact this
    · rw [← List.take_append_drop 8 l, pack_chunk _ _ (by simp; omega)]
      intro b hb
      rcases List.mem_cons.1 hb with rfl | hb
      · have := toNat_lt (l.take 8)
        rw [List.length_take, min_eq_left (by omega)] at this
        exact this
      · exact ih (l.drop 8).length (by simp; omega) _ rfl b hb

theorem wrote_store {b : BitBucket} {bits : List Bool} (h : Wrote b bits) (x : List Bool) :
    ∃ b', storeBits b (pack x) x.length = .ok b' ∧ Wrote b' (bits ++ x) := by
  have hb := bits_pack x
  have hl : (pack x).length = (x.length + 7) / 8 := by
    have := congrArg List.length hb
    simp [padZeros] at this
    omega
  obtain ⟨b', he, hh⟩ := holds_store h (pack x) x.length (pack_lt x) hl
  refine ⟨b', he, ?_⟩
  rw [hb] at hh
  simpa [Tape.write, Wrote] using hh

theorem wrote_bytes {b : BitBucket} {bits : List Bool} (h : Wrote b bits) (bytes : List Nat) (hb : ∀ x ∈ bytes, x < 256) :
    ∃ b', storeBits b bytes (8 * bytes.length) = .ok b' ∧ Wrote b' (bits ++ bitsOf bytes) := by
  obtain ⟨b', he, hh⟩ := holds_store h bytes (8 * bytes.length) hb (by omega)
  refine ⟨b', he, ?_⟩
  rw [List.take_of_length_le (by simp)] at hh
  exact hh

theorem wrote_op {b : BitBucket} {bits : List Bool} (h : Wrote b bits) (op : Op) (x : List Bool)
    (f : BitBucket → Py BitBucket) (hf : ∀ b, call b op = applyStore b (f b))
    (hs : ∀ t, step t op = (t.write x, .none)) (hop : op.Ok) : ∃ b', f b = .ok b' ∧ Wrote b' (bits ++ x) := by
  obtain ⟨h1, h2⟩ := call_sim h op hop
  rw [hf, hs] at h1 h2
  cases hfb : f b with
  | error e => rw [hfb] at h1; simp [applyStore] at h1
  | ok b' => rw [hfb] at h2; exact ⟨b', rfl, h2⟩

theorem wrote_4 {b : BitBucket} {bits : List Bool} (h : Wrote b bits) (v : Nat) :
    ∃ b', storeBits4 b v = .ok b' ∧ Wrote b' (bits ++ natBits 4 v) :=
  wrote_op h (.store4 v) _ (fun b => storeBits4 b v) (fun _ => rfl) (fun _ => rfl) trivial

theorem wrote_8 {b : BitBucket} {bits : List Bool} (h : Wrote b bits) {v : Nat} (hv : v < 2 ^ 8) :
    ∃ b', storeBits8 b v = .ok b' ∧ Wrote b' (bits ++ natBits 8 v) :=
  wrote_op h (.store8 v) _ (fun b => storeBits8 b v) (fun _ => rfl) (fun _ => by simp only [step]; rw [if_pos hv]) trivial

theorem wrote_16 {b : BitBucket} {bits : List Bool} (h : Wrote b bits) {v : Nat} (hv : v < 2 ^ 16) :
    ∃ b', storeBits16 b v = .ok b' ∧ Wrote b' (bits ++ natBits 16 v) :=
  wrote_op h (.store16 v) _ (fun b => storeBits16 b v) (fun _ => rfl) (fun _ => by simp only [step]; rw [if_pos hv]) trivial

theorem wrote_32 {b : BitBucket} {bits : List Bool} (h : Wrote b bits) {v : Nat} (hv : v < 2 ^ 32) :
    ∃ b', storeBits32 b v = .ok b' ∧ Wrote b' (bits ++ natBits 32 v) :=
  wrote_op h (.store32 v) _ (fun b => storeBits32 b v) (fun _ => rfl) (fun _ => by simp only [step]; rw [if_pos hv]) trivial

theorem wrote_pad {b : BitBucket} {bits : List Bool} (h : Wrote b bits) :
    Wrote (padToByteBoundary b) (bits ++ padZeros bits.length) := (call_sim h .pad trivial).2

theorem wrote_out {b : BitBucket} {bits : List Bool} (h : Wrote b bits) :
    b.output = pack bits ∧ numBits b = bits.length :=
  ⟨pack_unique _ _ h.rep.bytes h.rep.content, h.rep.numBits⟩

end Verif.Bits
