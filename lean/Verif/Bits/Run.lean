import Verif.Bits.Get
/-
Bit buckets driven by operations, and the simulation by a tape.
-/
namespace Verif.Bits
open Verif Spec

/-- Call a storing method: an exception leaves the bucket as it was (bit_bucket.py raises before
changing anything, see `storeBits_spec`). -/
def applyStore (b : BitBucket) (r : Py BitBucket) : BitBucket × Res :=
  match r with
  | .ok b' => (b', .none)
  | .error e => (b, .raised e)

/-- Call GetBits. -/
def applyGet (b : BitBucket) (n : Nat) (r : Py (BitBucket × List Nat)) : BitBucket × Res :=
  match r with
  | .ok (b', l) => (b', .bytes l n)
  | .error e => (b, .raised e)

/-- Call GetBit or GetBits4/8/16/32. -/
def applyNum (b : BitBucket) (r : Py (BitBucket × Nat)) : BitBucket × Res :=
  match r with
  | .ok (b', v) => (b', .num v)
  | .error e => (b, .raised e)

/-- A method call on a bit bucket, bit_bucket.py 28-266. -/
def call (b : BitBucket) : Op → BitBucket × Res
  | .store bytes n => applyStore b (storeBits b bytes n)
  | .storeBit x => applyStore b (storeBit b x)
  | .store4 v => applyStore b (storeBits4 b v)
  | .store8 v => applyStore b (storeBits8 b v)
  | .store16 v => applyStore b (storeBits16 b v)
  | .store32 v => applyStore b (storeBits32 b v)
  | .pad => (padToByteBoundary b, .none)
  | .advance => (advanceReadPtr b, .none)
  | .get n => applyGet b n (getBits b n)
  | .getBit => applyNum b (getBit b)
  | .get4 => applyNum b (getBits4 b)
  | .get8 => applyNum b (getBits8 b)
  | .get16 => applyNum b (getBits16 b)
  | .get32 => applyNum b (getBits32 b)

/-- A sequence of method calls. -/
def calls (b : BitBucket) : List Op → BitBucket × List Res
  | [] => (b, [])
  | op :: ops => ((calls (call b op).1 ops).1, (call b op).2 :: (calls (call b op).1 ops).2)

/-- The bucket holds the tape. -/
structure Holds (b : BitBucket) (t : Tape) : Prop where
  rep : Rep b t.bits
  pos : t.pos = 8 * b.idxByte + b.idxBoff
  lt : b.idxBoff < 8

theorem holds_empty : Holds BitBucket.empty ⟨[], 0⟩ := ⟨rep_empty, rfl, by decide⟩

theorem holds_store {b : BitBucket} {t : Tape} (h : Holds b t) (inp : List Nat) (n : Nat)
    (hinp : ∀ x ∈ inp, x < 256) (hlen : inp.length = (n + 7) / 8) :
    ∃ b', storeBits b inp n = .ok b' ∧ Holds b' (t.write ((bitsOf inp).take n)) := by
  by_cases hne : inp = []
  · subst hne
    refine ⟨b, rfl, ?_⟩
    simpa [Tape.write] using h
  · obtain ⟨b', he, hr, hi, ho⟩ := storeBits_spec h.rep inp n hne hinp
    have hpos : 0 < inp.length := List.length_pos_iff.2 hne
    have : 8 * (inp.length - 1) + leftoverBits n = n := by
      unfold leftoverBits
      split <;> omega
    rw [this] at hr
    exact ⟨b', he, hr, by rw [hi, ho]; exact h.pos, by rw [ho]; exact h.lt⟩

theorem holds_get {b : BitBucket} {t : Tape} (h : Holds b t) (n : Nat) :
    (t.bits.length < t.pos + n → getBits b n = .error .standard) ∧
    (t.pos + n ≤ t.bits.length → ∃ b', getBits b n = .ok (b', pack ((t.bits.drop t.pos).take n)) ∧
      Holds b' { t with pos := t.pos + n }) := by
  obtain ⟨h1, h2⟩ := getBits_spec h.rep h.lt n
  rw [← h.pos] at h1 h2
  refine ⟨h1, fun hle => ?_⟩
  obtain ⟨b', he, ho, hb, hlt, hp⟩ := h2 hle
  have hr := h.rep
  exact ⟨b', he, ⟨⟨by rw [ho]; exact hr.bytes, by rw [hb]; exact hr.boff, by rw [ho]; exact hr.content⟩,
    hp.symm, hlt⟩⟩

theorem natBits_mod (w v : Nat) : natBits w (v % 2 ^ w) = natBits w v := by
  unfold natBits
  apply List.map_congr_left
  intro i hi
  have := List.mem_range.1 hi
  rw [Nat.testBit_mod_two_pow]
  simp
  omega

theorem natBits_add (w u v : Nat) : natBits (w + u) v = natBits w (v / 2 ^ u) ++ natBits u v := by
  induction w with
  | zero => simp [natBits]
  | succ w ih =>
    rw [show w + 1 + u = (w + u) + 1 by omega, natBits_succ, natBits_succ, ih, Nat.testBit_div_two_pow]
    simp

theorem toNat_lt (l : List Bool) : toNat l < 2 ^ l.length := by
  induction l with
  | nil => decide
  | cons b l ih =>
    rw [toNat_cons, List.length_cons, pow_succ]
    cases b <;> simp <;> omega

theorem natBits_toNat (w : Nat) (l : List Bool) (h : l.length = w) : natBits w (toNat l) = l := by
  induction l generalizing w with
  | nil => subst h; rfl
  | cons b l ih =>
    subst h
    have hlt : toNat l < 2 ^ l.length := toNat_lt l
    have hm : (b.toNat * 2 ^ l.length + toNat l) % 2 ^ l.length = toNat l := by
      rw [Nat.add_comm, Nat.add_mul_mod_self_right, Nat.mod_eq_of_lt hlt]
    rw [List.length_cons, natBits_succ, toNat_cons, Nat.testBit_eq_decide_div_mod_eq]
    congr 1
    · rw [Nat.add_comm, Nat.add_mul_div_right _ _ (Nat.two_pow_pos _), Nat.div_eq_of_lt hlt]
      cases b <;> rfl
    · rw [← natBits_mod, hm]
      exact ih _ rfl

theorem pack_small (l : List Bool) (h0 : l ≠ []) (h8 : l.length ≤ 8) :
    pack l = [toNat (l ++ List.replicate (8 - l.length) false)] := by
  cases l with
  | nil => exact absurd rfl h0
  | cons b bs =>
    rw [pack, List.take_append, List.take_of_length_le h8, List.take_replicate]
    have : bs.drop 7 = [] := List.drop_of_length_le (by simp only [List.length_cons] at h8; omega)
    rw [this]
    simp only [List.length_cons] at h8 ⊢
    rw [show min (8 - (bs.length + 1)) 8 = 8 - (bs.length + 1) by omega]
    simp [pack]

theorem toNat_zeros (n : Nat) : toNat (List.replicate n false) = 0 := by
  induction n with
  | zero => rfl
  | succ n ih => rw [List.replicate_succ, toNat_cons, ih]; simp

theorem pack_chunk (l m : List Bool) (h : l.length = 8) : pack (l ++ m) = toNat l :: pack m := by
  cases l with
  | nil => simp at h
  | cons b bs =>
    rw [List.cons_append, pack]
    simp only [List.length_cons] at h
    congr 2
    · rw [← List.cons_append, List.append_assoc, List.take_append_of_le_length (by simp; omega),
        List.take_of_length_le (by simp; omega)]
    · rw [List.drop_append_of_le_length (by omega), List.drop_of_length_le (by omega), List.nil_append]

theorem pack_exact (l : List Bool) (h : l.length = 8) : pack l = [toNat l] := by
  have := pack_chunk l [] h
  simpa [pack] using this

theorem bits_pack (l : List Bool) : bitsOf (pack l) = l ++ padZeros l.length := by
  induction h : l.length using Nat.strongRecOn generalizing l with
  | ind n ih =>
    subst h
    by_cases h0 : l = []
    · subst h0; simp [pack, padZeros]
    by_cases h8 : l.length ≤ 8
    · rw [pack_small l h0 h8, bitsOf_cons, bitsOf_nil, List.append_nil]
      have hpos : 0 < l.length := List.length_pos_iff.2 h0
      have hp : padZeros l.length = List.replicate (8 - l.length) false := by
        unfold padZeros
        congr 1
        omega
      rw [hp, byteBits, natBits_toNat _ _ (by simp; omega)]
    · have e : l = l.take 8 ++ l.drop 8 := (List.take_append_drop 8 l).symm
      have h1 : (l.take 8).length = 8 := by simp; omega
      have hlt : (l.drop 8).length < l.length := by simp; omega
      have hr := ih _ hlt (l.drop 8) rfl
      have hp : padZeros l.length = padZeros (l.drop 8).length := by
        rw [← padZeros_add8 (l.drop 8).length]
        congr 1
        simp
        omega
      rw [hp]
      conv_lhs => rw [e, pack_chunk _ _ h1, bitsOf_cons, hr, byteBits, natBits_toNat _ _ h1]
      rw [← List.append_assoc, List.take_append_drop]

theorem holds_num {b : BitBucket} {t : Tape} (h : Holds b t) (n : Nat) (f : BitBucket → Py (BitBucket × Nat))
    (hf : getBits b n = .error .standard → f b = .error .standard)
    (hg : ∀ (b' : BitBucket) (l : List Bool), l.length = n → getBits b n = .ok (b', pack l) → f b = .ok (b', toNat l)) :
    (applyNum b (f b)).2 = (t.read n fun l => .num (toNat l)).2 ∧
    Holds (applyNum b (f b)).1 (t.read n fun l => .num (toNat l)).1 := by
  obtain ⟨h1, h2⟩ := holds_get h n
  unfold Tape.read
  by_cases hle : t.pos + n ≤ t.bits.length
  · obtain ⟨b', he, hh⟩ := h2 hle
    rw [hg b' _ (by simp; omega) he, if_pos hle]
    exact ⟨rfl, hh⟩
  · rw [hf (h1 (by omega)), if_neg hle]
    exact ⟨rfl, h⟩

theorem testBit_shl7 (x : Bool) : (bitsOf [(if x then 1 else 0) <<< 7]).take 1 = [x] := by
  cases x <;> decide

theorem bits_nibble (v : Nat) : (bitsOf [(v &&& 0xf) <<< 4]).take 4 = natBits 4 v := by
  have h15 : ∀ i, Nat.testBit 15 i = decide (i < 4) := fun i => Nat.testBit_two_pow_sub_one 4 i
  simp [-Nat.testBit_zero, byteBits_eq, natBits, List.range_succ, Nat.testBit_shiftLeft, Nat.testBit_and, h15]

theorem bits_packH (v : Nat) : bitsOf [v / 256, v % 256] = natBits 16 v := by
  have h1 := natBits_add 8 8 v
  have h2 := natBits_mod 8 v
  simp only [bitsOf_cons, bitsOf_nil, List.append_nil, byteBits]
  rw [h1]
  congr 1

theorem bits_packL (v : Nat) : bitsOf [v / 16777216, v / 65536 % 256, v / 256 % 256, v % 256] = natBits 32 v := by
  have h1 := natBits_add 8 24 v
  have h2 := natBits_add 8 16 v
  have h3 := natBits_add 8 8 v
  have m1 := natBits_mod 8 (v / 65536)
  have m2 := natBits_mod 8 (v / 256)
  have m3 := natBits_mod 8 v
  simp only [bitsOf_cons, bitsOf_nil, List.append_nil, byteBits]
  norm_num only at h1 h2 h3 m1 m2 m3
  rw [m1, m2, m3, h1, h2, h3]

theorem call_sim {b : BitBucket} {t : Tape} (h : Holds b t) (op : Op) (hop : op.Ok) :
    (call b op).2 = (step t op).2 ∧ Holds (call b op).1 (step t op).1 := by
  cases op with
  | store bytes n =>
    obtain ⟨b', he, hh⟩ := holds_store h bytes n hop.1 hop.2
    simp only [call, he, applyStore, step]
    exact ⟨trivial, hh⟩
  | storeBit x =>
    obtain ⟨b', he, hh⟩ := holds_store h [(if x then 1 else 0) <<< 7] 1 (by cases x <;> decide) rfl
    rw [testBit_shl7] at hh
    simp only [call, storeBit, he, applyStore, step]
    exact ⟨trivial, hh⟩
  | store4 v =>
    obtain ⟨b', he, hh⟩ := holds_store h [(v &&& 0xf) <<< 4] 4 (by
      intro x hx
      rw [List.mem_singleton.1 hx, Nat.shiftLeft_eq]
      have : v &&& 0xf ≤ 15 := Nat.and_le_right
      omega) rfl
    rw [bits_nibble] at hh
    simp only [call, storeBits4, he, applyStore, step]
    exact ⟨trivial, hh⟩
  | store8 v =>
    by_cases hv : v < 256
    · obtain ⟨b', he, hh⟩ := holds_store h [v] 8 (by simpa using hv) rfl
      have : (bitsOf [v]).take 8 = natBits 8 v := by
        rw [List.take_of_length_le (by simp)]; simp [byteBits]
      rw [this] at hh
      simp only [call, storeBits8, packB, hv, if_true, bind, Except.bind, he, applyStore, step]
      exact ⟨trivial, hh⟩
    · simp only [call, storeBits8, packB, hv, if_false, bind, Except.bind, applyStore, step]
      exact ⟨trivial, h⟩
  | store16 v =>
    by_cases hv : v < 65536
    · obtain ⟨b', he, hh⟩ := holds_store h [v / 256, v % 256] 16 (by
        intro x hx
        simp only [List.mem_cons, List.not_mem_nil, or_false] at hx
        omega) rfl
      rw [List.take_of_length_le (by simp), bits_packH] at hh
      simp only [call, storeBits16, packH, hv, if_true, bind, Except.bind, he, applyStore, step]
      exact ⟨trivial, hh⟩
    · simp only [call, storeBits16, packH, hv, if_false, bind, Except.bind, applyStore, step]
      exact ⟨trivial, h⟩
  | store32 v =>
    by_cases hv : v < 4294967296
    · obtain ⟨b', he, hh⟩ := holds_store h [v / 16777216, v / 65536 % 256, v / 256 % 256, v % 256] 32 (by
        intro x hx
        simp only [List.mem_cons, List.not_mem_nil, or_false] at hx
        omega) rfl
      rw [List.take_of_length_le (by simp), bits_packL] at hh
      simp only [call, storeBits32, packL, hv, if_true, bind, Except.bind, he, applyStore, step]
      exact ⟨trivial, hh⟩
    · simp only [call, storeBits32, packL, hv, if_false, bind, Except.bind, applyStore, step]
      exact ⟨trivial, h⟩
  | pad =>
    refine ⟨rfl, ?_⟩
    have hb := h.rep.boff
    simp only [call, step, padToByteBoundary, Tape.write]
    by_cases h0 : b.outBoff % 8 = 0
    · rw [if_neg (by simpa using h0)]
      have : padZeros t.bits.length = [] := by
        simp only [padZeros]
        rw [show (8 - t.bits.length % 8) % 8 = 0 by omega]
        rfl
      rw [this, List.append_nil]
      exact h
    · rw [if_pos h0]
      have hl : (t.bits ++ padZeros t.bits.length).length % 8 = 0 := by
        simp [padZeros]
        omega
      refine ⟨⟨h.rep.bytes, hl.symm, ?_⟩, h.pos, h.lt⟩
      simp only [h.rep.content]
      have : padZeros (t.bits ++ padZeros t.bits.length).length = [] := by
        unfold padZeros at hl ⊢
        rw [hl]
        rfl
      rw [this, List.append_nil]
  | advance =>
    have hp := h.pos
    have hl := h.lt
    have hr := h.rep
    simp only [call, step, advanceReadPtr]
    by_cases h0 : (8 - b.idxBoff) % 8 = 0
    · rw [if_neg (by simpa using h0)]
      exact ⟨trivial, hr, by simp only; omega, hl⟩
    · rw [if_pos h0]
      exact ⟨trivial, ⟨hr.bytes, hr.boff, hr.content⟩, by simp only; omega, by simp only; omega⟩
  | get n =>
    obtain ⟨h1, h2⟩ := holds_get h n
    simp only [call, step, Tape.read]
    by_cases hle : t.pos + n ≤ t.bits.length
    · obtain ⟨b', he, hh⟩ := h2 hle
      rw [he, if_pos hle]
      exact ⟨rfl, hh⟩
    · rw [h1 (by omega), if_neg hle]
      exact ⟨rfl, h⟩
  | getBit =>
    refine holds_num h 1 getBit (fun he => by simp [getBit, he, bind, Except.bind]) (fun b' l hl he => ?_)
    have hp := pack_small l (by rintro rfl; simp at hl) (by omega)
    rw [hl] at hp
    simp only [getBit, he, hp, bind, Except.bind, at?, pure, Except.pure, List.getElem?_cons_zero]
    rw [toNat_append, toNat_zeros, Nat.shiftRight_eq_div_pow]
    simp
  | get4 =>
    refine holds_num h 4 getBits4 (fun he => by simp [getBits4, he, bind, Except.bind]) (fun b' l hl he => ?_)
    have hp := pack_small l (by rintro rfl; simp at hl) (by omega)
    rw [hl] at hp
    simp only [getBits4, he, hp, bind, Except.bind, at?, pure, Except.pure, List.getElem?_cons_zero]
    rw [toNat_append, toNat_zeros, Nat.shiftRight_eq_div_pow]
    simp
  | get8 =>
    refine holds_num h 8 getBits8 (fun he => by simp [getBits8, he, bind, Except.bind]) (fun b' l hl he => ?_)
    simp [getBits8, he, pack_exact l hl, bind, Except.bind, at?, pure, Except.pure]
  | get16 =>
    refine holds_num h 16 getBits16 (fun he => by simp [getBits16, he, bind, Except.bind]) (fun b' l hl he => ?_)
    have e1 : l = l.take 8 ++ l.drop 8 := (List.take_append_drop 8 l).symm
    have l1 : (l.take 8).length = 8 := by simp [hl]
    have l2 : (l.drop 8).length = 8 := by simp [hl]
    rw [e1, pack_chunk _ _ l1, pack_exact _ l2] at he
    simp only [getBits16, he, bind, Except.bind, at?, pure, Except.pure, List.getElem?_cons_zero, List.getElem?_cons_succ]
    conv_rhs => rw [e1, toNat_append, l2]
    rfl
  | get32 =>
    refine holds_num h 32 getBits32 (fun he => by simp [getBits32, he, bind, Except.bind]) (fun b' l hl he => ?_)
    obtain ⟨w, x, y, z, rfl, hw, hx, hy, hz⟩ : ∃ w x y z : List Bool, l = w ++ (x ++ (y ++ z)) ∧ w.length = 8 ∧ x.length = 8 ∧
        y.length = 8 ∧ z.length = 8 := by
      refine ⟨l.take 8, (l.drop 8).take 8, ((l.drop 8).drop 8).take 8, ((l.drop 8).drop 8).drop 8, ?_, ?_, ?_, ?_, ?_⟩
      · simp only [List.take_append_drop]
      all_goals simp [hl]
    rw [pack_chunk _ _ hw, pack_chunk _ _ hx, pack_chunk _ _ hy, pack_exact _ hz] at he
    simp only [getBits32, he, bind, Except.bind, at?, pure, Except.pure, List.getElem?_cons_zero, List.getElem?_cons_succ]
    rw [toNat_append, toNat_append, toNat_append]
    simp only [List.length_append, hx, hy, hz]
    refine congrArg Except.ok (congrArg (Prod.mk _) ?_)
    norm_num only
    omega

theorem calls_sim (ops : List Op) (hops : ∀ op ∈ ops, op.Ok) : ∀ {b : BitBucket} {t : Tape}, Holds b t →
    (calls b ops).2 = (run t ops).2 ∧ Holds (calls b ops).1 (run t ops).1 := by
  induction ops with
  | nil => intro b t h; exact ⟨rfl, h⟩
  | cons op ops ih =>
    intro b t h
    obtain ⟨h1, h2⟩ := call_sim h op (hops op (by simp))
    obtain ⟨h3, h4⟩ := ih (fun o ho => hops o (by simp [ho])) h2
    simp only [calls, run]
    exact ⟨by rw [h1, h3], h4⟩

end Verif.Bits
