import Verif.Delta1.Cut
import Verif.Delta2.Any
/-
What delta's deserialiser makes of any bytes.
-/
namespace Verif.Delta1
open Verif Verif.Bits Verif.Bits.Spec Verif.Huff Verif.Huff.Spec Verif.Delta2

/-- At a byte boundary and with bits up to a byte boundary `g` reads at least `k` bits, whole bytes, and gives a value with
`Q`, or it raises StandardError. -/
def Sound {α : Type} (g : BitBucket → Py (BitBucket × α)) (k : Nat) (Q : α → Prop) : Prop :=
  ∀ (b : BitBucket) (pre rest : List Bool), At b pre rest → rest.length % 8 = 0 → pre.length % 8 = 0 →
    g b = .error .standard ∨
    ∃ b' v x y, g b = .ok (b', v) ∧ rest = x ++ y ∧ At b' (pre ++ x) y ∧ k ≤ x.length ∧ x.length % 8 = 0 ∧ Q v

theorem Sound.andThen {α β : Type} {g : BitBucket → Py (BitBucket × α)} {f : α → BitBucket → Py (BitBucket × β)}
    {k k' : Nat} {Q : α → Prop} {Q' : β → Prop} (h : Sound g k Q) (h' : ∀ v, Q v → Sound (f v) k' Q') :
    Sound (fun b => (g b).bind fun r => f r.2 r.1) (k + k') Q' := by
  intro b pre rest ha h8 hp
  simp only
  rcases h b pre rest ha h8 hp with e | ⟨b1, v, x, y, e, rfl, h1, hk, hx, hv⟩
  · left; simp only [e, Except.bind]
  · simp only [List.length_append] at h8
    simp only [e, Except.bind]
    rcases h' v hv b1 _ y h1 (by omega) (by simp only [List.length_append]; omega) with
      e' | ⟨b2, w, x2, y2, e', rfl, h2, hk2, hx2, hw⟩
    · exact .inl e'
    · exact .inr ⟨b2, w, x ++ x2, y2, e', by simp, by simpa using h2, by simp only [List.length_append]; omega,
        by simp only [List.length_append]; omega, hw⟩

theorem Sound.done {β : Type} (v : β) {Q : β → Prop} (h : Q v) : Sound (fun b => (pure (b, v) : Py (BitBucket × β))) 0 Q := by
  intro b pre rest ha _ _
  exact .inr ⟨b, v, [], rest, rfl, rfl, by simpa using ha, by simp, rfl, h⟩

theorem int_any : Sound (fun b => unpackInt b 16) 16 (fun v => v < 2 ^ 16) := by
  intro b pre rest ha h8 hp
  by_cases hl : rest.length < 16
  · exact .inl (int_short ha hl)
  · obtain ⟨v, y, hv, rfl⟩ := split_bits rest 16 (by omega)
    obtain ⟨b', e, h'⟩ := int_reads hv ha
    exact .inr ⟨b', v, _, y, e, rfl, h', by simp, by simp, hv⟩

theorem str_any {h : Huffman} {codes : List (List Bool)} (hk : FullOk (some h) codes) :
    Sound (unpackStr (some h) true true) 8 (fun s => ∀ c ∈ s, c < 256) := by
  obtain ⟨h', e, hc⟩ := hk.ex
  cases e
  intro b pre rest ha h8 hp
  have hlen := at_len ha
  simp only [unpackStr, if_true, decodeFromBB, bind, Except.bind]
  rw [if_neg (by simp)]
  simp only [le_refl, if_true]
  rcases decodeLoop_any hc hk.len hk.full (8 * b.output.length + 1) 0 [] ha (by omega) (by simp) with
    ⟨e, h⟩ | ⟨b1, n, s, x, y, e, rfl, h1, hx, hs⟩
  · left
    rw [e]
  · right
    rw [e]
    obtain ⟨x', y', rfl, h2, h3⟩ := advance_any h1 (by simp only [List.length_append] at h8 ⊢; omega)
    simp only [List.length_append] at h3
    exact ⟨_, s, x ++ x', y', rfl, by simp, by simpa using h2, by simp only [List.length_append]; omega,
      by simp only [List.length_append]; omega, hs⟩

theorem op_any {h : Huffman} {codes : List (List Bool)} (hk : FullOk (some h) codes) (oc : Opcode) :
    Sound (fun b => readOp h b oc) 16 (fun op => op.opcode = oc ∧ OpOk op) := by
  cases oc with
  | toggl => exact int_any.andThen fun v hv => Sound.done (Op.toggl v) ⟨rfl, hv⟩
  | trang =>
    have := int_any.andThen fun l hl => int_any.andThen fun s hs => Sound.done (Op.trang s l)
      (Q := fun op => op.opcode = .trang ∧ OpOk op) ⟨rfl, hs, hl⟩
    intro b pre rest ha h8 hp
    rcases this b pre rest ha h8 hp with e | ⟨b', v, x, y, e, h1, h2, h3, h4, h5⟩
    · exact .inl e
    · exact .inr ⟨b', v, x, y, e, h1, h2, by omega, h4, h5⟩
  | clone =>
    have := int_any.andThen fun k hk' => (str_any hk).andThen fun v hv => Sound.done (Op.clone k v)
      (Q := fun op => op.opcode = .clone ∧ OpOk op) ⟨rfl, hk', hv⟩
    intro b pre rest ha h8 hp
    rcases this b pre rest ha h8 hp with e | ⟨b', v, x, y, e, h1, h2, h3, h4, h5⟩
    · exact .inl e
    · exact .inr ⟨b', v, x, y, e, h1, h2, by omega, h4, h5⟩
  | kvsto => exact (str_any hk).andThen fun k hk' => (str_any hk).andThen fun v hv => Sound.done (Op.kvsto k v) ⟨rfl, hk', hv⟩
  | eref => exact (str_any hk).andThen fun k hk' => (str_any hk).andThen fun v hv => Sound.done (Op.eref k v) ⟨rfl, hk', hv⟩

theorem ops_any {h : Huffman} {codes : List (List Bool)} (hk : FullOk (some h) codes) (oc : Opcode) (n : Nat) :
    ∀ (acc : List Op), Sound (fun b => readOps h oc n b acc) (16 * n) (fun r => ∃ ops, r = acc ++ ops ∧ ops.length = n ∧
      ∀ op ∈ ops, OpOk op) := by
  induction n with
  | zero =>
    intro acc
    exact Sound.done acc ⟨[], by simp, rfl, by simp⟩
  | succ n ih =>
    intro acc
    have hn : ∀ op, (op.opcode = oc ∧ OpOk op) → Sound (fun b => readOps h oc n b (acc ++ [op])) (16 * n)
        (fun r => ∃ ops, r = acc ++ ops ∧ ops.length = n + 1 ∧ ∀ op ∈ ops, OpOk op) := by
      intro op ho b pre rest ha h8 hp
      rcases ih (acc ++ [op]) b pre rest ha h8 hp with e | ⟨b', v, x, y, e, h1, h2, h3, h4, ops, rfl, h5, h6⟩
      · exact .inl e
      · refine .inr ⟨b', _, x, y, e, h1, h2, h3, h4, op :: ops, by simp, by simp [h5], ?_⟩
        intro o hm
        rcases List.mem_cons.1 hm with rfl | hm
        · exact ho.2
        · exact h6 o hm
    have := (op_any hk oc).andThen (f := fun op b => readOps h oc n b (acc ++ [op])) hn
    rw [show 16 * (n + 1) = 16 + 16 * n by omega]
    exact this

theorem block_any {h : Huffman} {codes : List (List Bool)} (hk : FullOk (some h) codes) (acc : List Op) {b : BitBucket}
    {pre rest : List Bool} (ha : At b pre rest) (h8 : rest.length % 8 = 0) (hp : pre.length % 8 = 0) :
    readBlock h b acc = .error .standard ∨ readBlock h b acc = .error .key ∨
    ∃ b' ops x y, readBlock h b acc = .ok (b', acc ++ ops) ∧ rest = x ++ y ∧ At b' (pre ++ x) y ∧ 32 ≤ x.length ∧
      x.length % 8 = 0 ∧ 257 * ops.length ≤ 16 * x.length ∧ ∀ op ∈ ops, OpOk op := by
  rcases any_8 ha with ⟨_, e1⟩ | ⟨b1, v, x1, y1, _, e1, rfl, a1, l1⟩
  · left; simp only [readBlock, bind, Except.bind, e1]
  rcases any_8 a1 with ⟨_, e2⟩ | ⟨b2, n, x2, y2, hn, e2, rfl, a2, l2⟩
  · left; simp only [readBlock, bind, Except.bind, e1, e2]
  simp only [readBlock, bind, Except.bind, e1, e2]
  cases opcodeOf v with
  | none => exact .inr (.inl rfl)
  | some oc =>
    simp only [List.length_append] at h8
    rcases ops_any hk oc (n + 1) acc b2 _ y2 a2 (by omega) (by simp only [List.length_append]; omega) with
      e | ⟨b', r, x, y, e, rfl, h2, h3, h4, ops, rfl, h5, h6⟩
    · exact .inl e
    · exact .inr (.inr ⟨b', ops, x1 ++ (x2 ++ x), y, e, by simp, by simpa using h2, by simp only [List.length_append]; omega,
        by simp only [List.length_append]; omega, by simp only [List.length_append]; omega, h6⟩)

theorem blocks_any {h : Huffman} {codes : List (List Bool)} (hk : FullOk (some h) codes) (fuel : Nat) : ∀ (acc : List Op)
    (lim : Int) {b : BitBucket} {pre rest : List Bool}, At b pre rest → rest.length % 8 = 0 → pre.length % 8 = 0 →
    rest.length < fuel →
    readBlocks h fuel b lim acc = .error .standard ∨ readBlocks h fuel b lim acc = .error .key ∨
    ∃ b' ops x y, readBlocks h fuel b lim acc = .ok (b', acc ++ ops) ∧ rest = x ++ y ∧ At b' (pre ++ x) y ∧
      x.length % 8 = 0 ∧ 257 * ops.length ≤ 16 * x.length ∧ ∀ op ∈ ops, OpOk op := by
  induction fuel with
  | zero => intro acc lim b pre rest _ _ _ hf; omega
  | succ fuel ih =>
    intro acc lim b pre rest ha h8 hp hf
    unfold readBlocks
    by_cases hlim : lim > 16
    · rw [if_pos hlim]
      rcases block_any hk acc ha h8 hp with e | e | ⟨b1, ops, x, y, e, rfl, h1, h2, h3, h4, h5⟩
      · left; simp only [bind, Except.bind, e]
      · right; left; simp only [bind, Except.bind, e]
      · simp only [bind, Except.bind, e]
        simp only [List.length_append] at h8 hf
        rcases ih (acc ++ ops) (lim - (bitsRemaining b - bitsRemaining b1)) h1 (by omega)
          (by simp only [List.length_append]; omega) (by omega) with e | e | ⟨b2, ops2, x2, y2, e, rfl, k1, k3, k4, k5⟩
        · exact .inl e
        · exact .inr (.inl e)
        · refine .inr (.inr ⟨b2, ops ++ ops2, x ++ x2, y2, by simpa using e, by simp, by simpa using k1,
            by simp only [List.length_append]; omega, by simp only [List.length_append]; omega, ?_⟩)
          intro op ho
          rcases List.mem_append.1 ho with ho | ho
          · exact h5 op ho
          · exact k5 op ho
    · rw [if_neg hlim]
      exact .inr (.inr ⟨b, [], [], rest, by simp, rfl, by simpa using ha, rfl, by simp, by simp⟩)

theorem frames_any {h : Huffman} {codes : List (List Bool)} (hk : FullOk (some h) codes) (fuel : Nat) : ∀ (acc : List Op)
    {b : BitBucket} {pre rest : List Bool}, At b pre rest → rest.length % 8 = 0 → pre.length % 8 = 0 →
    rest.length < 72 * fuel + 16 →
    readFrames h (fuel + 1) b acc = .error .standard ∨ readFrames h (fuel + 1) b acc = .error .key ∨
    ∃ gid ops, readFrames h (fuel + 1) b acc = .ok (gid, acc ++ ops) ∧ gid < 256 ∧
      257 * ops.length + 1152 ≤ 16 * rest.length ∧ ∀ op ∈ ops, OpOk op := by
  induction fuel with
  | zero =>
    intro acc b pre rest ha h8 h4 hf
    left
    simp only [readFrames, bind, Except.bind, at_16_short ha (by omega)]
  | succ fuel ih =>
    intro acc b pre rest ha h8 h4 hf
    rw [readFrames]
    rcases any_16 ha with ⟨_, e1⟩ | ⟨b1, len, x1, y1, _, e1, rfl, a1, l1⟩
    · left; simp only [bind, Except.bind, e1]
    rcases any_8 a1 with ⟨_, e2⟩ | ⟨b2, flags, x2, y2, _, e2, rfl, a2, l2⟩
    · left; simp only [bind, Except.bind, e1, e2]
    rcases any_32 a2 with ⟨_, e3⟩ | ⟨b3, sid, x3, y3, _, e3, rfl, a3, l3⟩
    · left; simp only [bind, Except.bind, e1, e2, e3]
    rcases any_8 a3 with ⟨_, e4⟩ | ⟨b4, typ, x4, y4, _, e4, rfl, a4, l4⟩
    · left; simp only [bind, Except.bind, e1, e2, e3, e4]
    rcases any_8 a4 with ⟨_, e5⟩ | ⟨b5, gid, x5, y5, hgid, e5, rfl, a5, l5⟩
    · left; simp only [bind, Except.bind, e1, e2, e3, e4, e5]
    simp only [bind, Except.bind, e1, e2, e3, e4, e5]
    simp only [List.length_append] at h8 hf
    have hlen := a5.bits.length
    simp only [List.length_append] at hlen
    rcases blocks_any hk (8 * b5.output.length) acc (len * 8 : Nat) a5 (by omega)
      (by simp only [List.length_append]; omega) (by omega) with e6 | e6 | ⟨b6, ops, x, y, e6, rfl, g1, g2, g3, g4⟩
    · left; simp only [e6]
    · right; left; simp only [e6]
    · simp only [e6]
      simp only [List.length_append] at h8 hf
      by_cases hfl : flags = 0
      · rw [if_pos hfl]
        rcases ih (acc ++ ops) g1 (by omega) (by simp only [List.length_append]; omega) (by omega) with
          e7 | e7 | ⟨gid', ops', e7, k1, k2, k3⟩
        · exact .inl e7
        · exact .inr (.inl e7)
        · refine .inr (.inr ⟨gid', ops ++ ops', by simpa using e7, k1, by simp only [List.length_append]; omega, ?_⟩)
          intro op ho
          rcases List.mem_append.1 ho with ho | ho
          · exact g4 op ho
          · exact k3 op ho
      · rw [if_neg hfl]
        exact .inr (.inr ⟨gid, ops, rfl, by omega, by simp only [List.length_append]; omega, g4⟩)

theorem deserialize_any {h : Huffman} {codes : List (List Bool)} (hk : FullOk (some h) codes) (bytes : List Nat)
    (hb : ∀ x ∈ bytes, x < 256) :
    realOpsToOps h bytes = .error .standard ∨ realOpsToOps h bytes = .error .key ∨
    ∃ gid ops, realOpsToOps h bytes = .ok (gid, ops) ∧ gid < 256 ∧
      257 * ops.length + 1152 ≤ 128 * bytes.length ∧ ∀ op ∈ ops, OpOk op := by
  obtain ⟨b, w, e⟩ := deserialize_bits h bytes hb
  have hst := w.start
  have hl : (bitsOf bytes).length = 8 * bytes.length := bitsOf_length _
  have hlen := at_len hst
  rw [e]
  rcases frames_any hk b.output.length [] hst (by omega) (by simp) (by omega) with h | h | ⟨gid, ops, h, h1, h2, h3⟩
  · exact .inl h
  · exact .inr (.inl h)
  · exact .inr (.inr ⟨gid, ops, by simpa using h, h1, by omega, h3⟩)

end Verif.Delta1
