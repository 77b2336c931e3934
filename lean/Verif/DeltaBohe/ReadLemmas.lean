import Verif.DeltaBohe.WireLemmas
/-
delta_bohe: reading what was written, if all strings are Huffman coded.
-/
namespace Verif.DeltaBohe
open Verif Verif.Bits Verif.Bits.Spec Verif.Huff Verif.Huff.Spec

/-- The operations of a message, by opcode, for the receiver. -/
def Instrs.plain (g : Instrs) : List (Delta1.Opcode × List Delta1.Op) :=
  [(.toggl, (Delta1.toggleRanges g.toggl).ot.map .toggl), (.trang, (Delta1.toggleRanges g.toggl).otr.map fun x => .trang x.1 x.2),
   (.clone, g.clone.map fun x => .clone x.1 x.2.1), (.kvsto, g.kvsto.map fun x => .kvsto x.1 x.2.1)]

/-- The operations of a message in the order in which they are written. -/
def Instrs.ops (g : Instrs) : List Delta1.Op := g.plain.flatMap (·.2)

theorem payloadW_plain (codes : List (List Bool)) (g : Instrs) (h1 : ∀ x ∈ g.clone, x.2.2 = true) (h2 : ∀ x ∈ g.kvsto, x.2.2 = true) :
    payloadW codes g = Delta1.payloadB codes g.plain := by
  have key : ∀ (oc : Delta1.Opcode) (ops : List Op) (ops' : List Delta1.Op), List.Forall₂ (fun a b => opW codes a = Delta1.opB codes b) ops ops' →
      blockW codes oc.val ops = Delta1.blockB codes (oc, ops') := by
    intro oc ops ops' hf
    have hm : ops.flatMap (opW codes) = ops'.flatMap (Delta1.opB codes) := by
      induction hf with
      | nil => rfl
      | cons a _ ih => simp only [List.flatMap_cons, a, ih]
    simp only [blockW, Delta1.blockB, hf.length_eq, hm, Delta1.opsB]
  have hmap : ∀ {α : Type} (l : List α) (f : α → Op) (f' : α → Delta1.Op), (∀ x ∈ l, opW codes (f x) = Delta1.opB codes (f' x)) →
      List.Forall₂ (fun a b => opW codes a = Delta1.opB codes b) (l.map f) (l.map f') := by
    intro α l f f' hx
    induction l with
    | nil => exact .nil
    | cons a l ih => exact .cons (hx a (by simp)) (ih fun y hy => hx y (by simp [hy]))
  unfold payloadW Delta1.payloadB Instrs.plain
  simp only [List.flatMap_cons, List.flatMap_nil, List.append_nil]
  have e1 := key .toggl _ _ (hmap (Delta1.toggleRanges g.toggl).ot .toggl .toggl fun x _ => rfl)
  have e2 := key .trang _ _ (hmap (Delta1.toggleRanges g.toggl).otr (fun x => .trang x.1 x.2) (fun x => .trang x.1 x.2) fun x _ => rfl)
  have e3 := key .clone _ _ (hmap g.clone (fun x => .clone x.1 x.2.1 x.2.2) (fun x => .clone x.1 x.2.1) fun x hx => by
    simp only [opW, Delta1.opB, h1 x hx, strW, if_true])
  have e4 := key .kvsto _ _ (hmap g.kvsto (fun x => .kvsto x.1 x.2.1 x.2.2) (fun x => .kvsto x.1 x.2.1) fun x hx => by
    simp only [opW, Delta1.opB, h2 x hx, strW, if_true])
  simp only [Delta1.Opcode.val] at e1 e2 e3 e4
  rw [e1, e2, e3, e4]

theorem plain_ok {g : Instrs} (hg : InstrsOk g) : Delta1.GroupsOk g.plain := by
  obtain ⟨ht, htr⟩ := ranges_lt hg.1
  intro x hx op hop
  simp only [Instrs.plain, List.mem_cons, List.not_mem_nil, or_false] at hx
  rcases hx with rfl | rfl | rfl | rfl <;> obtain ⟨i, hi, rfl⟩ := List.mem_map.1 hop
  · exact ⟨rfl, ht i hi⟩
  · exact ⟨rfl, htr i hi⟩
  · exact ⟨rfl, hg.2.1 i hi⟩
  · exact ⟨rfl, hg.2.2 i hi⟩

theorem ranges_len (l : List Nat) : (Delta1.toggleRanges l).ot.length ≤ l.length ∧ (Delta1.toggleRanges l).otr.length ≤ l.length := by
  obtain ⟨hp, hle, -⟩ := Delta1.toggleRanges_spec l
  have hlen := hp.length_eq
  simp only [Delta1.RangeSt.all, List.length_append] at hlen
  have hotr : (Delta1.toggleRanges l).otr.length ≤ ((Delta1.toggleRanges l).otr.flatMap fun r => Delta1.range r.1 r.2).length := by
    generalize (Delta1.toggleRanges l).otr = l at hle
    induction l with
    | nil => simp
    | cons x l ih =>
      have h1 := ih fun r hr => hle r (by simp [hr])
      have h2 := hle x (by simp)
      simp only [List.length_cons, List.flatMap_cons, List.length_append]
      have : (Delta1.range x.1 x.2).length = x.2 + 1 - x.1 := by simp [Delta1.range]
      omega
  omega

/-- Reading what was written. -/
theorem wire_read {h : Huffman} {codes : List (List Bool)} (hc : Codes h codes) (h257 : codes.length = 257) {g : Instrs} (hg : InstrsOk g)
    (h1 : ∀ x ∈ g.clone, x.2.2 = true) (h2 : ∀ x ∈ g.kvsto, x.2.2 = true) (hle1 : g.toggl.length ≤ 256) (hle2 : g.clone.length ≤ 256)
    (hle3 : g.kvsto.length ≤ 256) {bytes : Str} (hb : opsToRealOps h g = .ok bytes) (hfit : bytes.length ≤ 65536) :
    realOpsToOps h bytes = .ok g.ops := by
  obtain ⟨bytes', e, -, hsz, hform⟩ := wire_spec hc h257 hg
  rw [hb] at e
  cases e
  have hP8 := payloadW_len codes g
  have hfit' := hsz hfit
  have hform := hform hfit'
  rw [payloadW_plain codes g h1 h2] at hP8 hfit' hform
  have hok := plain_ok hg
  have hle : ∀ x ∈ g.plain, x.2.length ≤ 256 := by
    obtain ⟨r1, r2⟩ := ranges_len g.toggl
    intro x hx
    simp only [Instrs.plain, List.mem_cons, List.not_mem_nil, or_false] at hx
    rcases hx with rfl | rfl | rfl | rfl <;> simp only [List.length_map] <;> omega
  have hops : g.ops = g.plain.flatMap (·.2) := rfl
  rw [hops]
  generalize g.plain = gs at hP8 hfit' hform hok hle
  generalize hPg : Delta1.payloadB codes gs = P at hP8 hfit' hform
  generalize hA : headW (P.length / 8) 1 1234 8 ++ P = A at hform
  have hAl : A.length % 8 = 0 := by
    rw [← hA, List.length_append, headW_len]
    omega
  obtain ⟨b5, e5, w5⟩ := wrote_store wrote_empty A
  rw [List.nil_append] at w5
  obtain ⟨o5, n5⟩ := wrote_out w5
  have hst := w5.start
  rw [← hA] at hst
  simp only [headW, List.append_assoc] at hst
  obtain ⟨c1, f1, a1⟩ := at_16 (by omega) hst
  obtain ⟨c2, f2, a2⟩ := at_8 (by omega) a1
  obtain ⟨c3, f3, a3⟩ := at_32 (by decide) a2
  obtain ⟨c4, f4, a4⟩ := at_8 (by omega) a3
  have hlA : (pack A).length * 8 = A.length := by rw [Delta2.pack_length]; omega
  have h5 : storeBits BitBucket.empty b5.output (numBits b5).toNat = .ok b5 := by
    rw [o5, n5, Int.toNat_natCast]
    exact e5
  have h6 : storeBits BitBucket.empty (pack A) ((pack A).length * 8) = .ok b5 := by rw [hlA]; exact e5
  have h8 : (P.length / 8 * 8 : Nat) = P.length := by omega
  generalize hpre : ([] ++ natBits 16 (P.length / 8) ++ natBits 8 1 ++ natBits 32 (2147483648 ||| 1234) ++ natBits 8 8) = pre at a4
  have hprel : pre.length % 8 = 0 := by rw [← hpre]; simp
  rw [← List.append_nil P] at a4
  have hf : P.length ≤ 8 * c4.output.length := by
    have := Delta2.at_len a4
    simp only [List.length_append] at this
    omega
  rw [← hPg] at a4 hf
  obtain ⟨b', e2, -⟩ := Delta1.blocks_read hc h257 gs hok hle (8 * c4.output.length) [] hprel a4 hf
  rw [hform]
  rw [hPg] at e2
  simp only [realOpsToOps, bind, Except.bind, h6, deserialize, h5, readFrames, f1, f2, f3, f4, h8, e2]
  rfl

/-! ### What was sent could be packed -/

/-- The strings of an operation are bytes. -/
def OpStr : Op → Prop
  | .toggl _ => True
  | .trang _ _ => True
  | .clone _ v _ => ∀ c ∈ v, c < 256
  | .kvsto k v _ => (∀ c ∈ k, c < 256) ∧ ∀ c ∈ v, c < 256

theorem int_sent {b b' : BitBucket} {bits : List Bool} (hw : Wrote b bits) {v : Nat} (e : Delta2.packInt b 16 v = .ok b') : v < 2 ^ 16 := by
  by_contra hv
  rcases int_fails hw hv with h | h <;> rw [h] at e <;> cases e

theorem op_sent {h : Huffman} {codes : List (List Bool)} (hc : Codes h codes) (h257 : codes.length = 257) {op : Op}
    (ho : OpStr op) {b b' : BitBucket} {bits : List Bool} (hw : Wrote b bits) (e : writeOp h b op = .ok b') : OpOk op := by
  cases op with
  | toggl i => exact int_sent hw e
  | trang s l =>
    simp only [writeOp, bind, Except.bind] at e
    cases e1 : Delta2.packInt b 16 l with
    | error x => rw [e1] at e; cases e
    | ok b1 =>
      rw [e1] at e
      have hl := int_sent hw e1
      obtain ⟨b1', e1', w1⟩ := Delta1.int_writes hw hl
      rw [e1] at e1'
      cases e1'
      exact ⟨int_sent w1 e, hl⟩
  | clone k v huff =>
    simp only [writeOp, bind, Except.bind] at e
    cases e1 : Delta2.packInt b 16 k with
    | error x => rw [e1] at e; cases e
    | ok b1 => exact ⟨int_sent hw e1, ho⟩
  | kvsto k v huff => exact ho

theorem ops_sent {h : Huffman} {codes : List (List Bool)} (hc : Codes h codes) (h257 : codes.length = 257) (ops : List Op) :
    (∀ op ∈ ops, OpStr op) → ∀ {b b' : BitBucket} {bits : List Bool}, Wrote b bits → writeOps h ops b = .ok b' →
    (∀ op ∈ ops, OpOk op) ∧ ∃ bits', Wrote b' bits' := by
  induction ops with
  | nil => intro _ b b' bits hw e; cases e; exact ⟨by simp, bits, hw⟩
  | cons op ops ih =>
    intro ho b b' bits hw e
    simp only [writeOps, bind, Except.bind] at e
    cases e1 : writeOp h b op with
    | error x => rw [e1] at e; cases e
    | ok b1 =>
      rw [e1] at e
      have h1 := op_sent hc h257 (ho op (by simp)) hw e1
      obtain ⟨b1', e1', w1⟩ := op_writes hc h257 h1 hw
      rw [e1] at e1'
      cases e1'
      obtain ⟨h2, h3⟩ := ih (fun o hm => ho o (by simp [hm])) w1 e
      refine ⟨?_, h3⟩
      intro o hm
      rcases List.mem_cons.1 hm with rfl | hm
      · exact h1
      · exact h2 o hm

theorem output_sent {h : Huffman} {codes : List (List Bool)} (hc : Codes h codes) (h257 : codes.length = 257)
    {opcode : Nat} (hoc : opcode < 2 ^ 8) (ops : List Op) (ho : ∀ op ∈ ops, OpStr op) {b b' : BitBucket} {bits : List Bool} (hw : Wrote b bits)
    (e : outputOps h opcode ops b = .ok b') : (∀ op ∈ ops, OpOk op) ∧ ∃ bits', Wrote b' bits' := by
  unfold outputOps at e
  by_cases h0 : ops.length = 0
  · rw [if_pos h0] at e
    cases e
    rw [List.length_eq_zero_iff.1 h0]
    exact ⟨by simp, bits, hw⟩
  · rw [if_neg h0] at e
    obtain ⟨b1, e1, w1⟩ := wrote_8 hw hoc
    obtain ⟨b2, e2, w2⟩ := wrote_8 w1 (v := min 256 ops.length - 1) (by omega)
    simp only [bind, Except.bind, e1, e2] at e
    exact ops_sent hc h257 ops ho w2 e

/-- Operations that are sent have indices of 16 bits. -/
theorem instrs_sent {h : Huffman} {codes : List (List Bool)} (hc : Codes h codes) (h257 : codes.length = 257) {g : Instrs} {bytes : Str}
    (h1 : ∀ x ∈ g.clone, ∀ c ∈ x.2.1, c < 256) (h2 : ∀ x ∈ g.kvsto, (∀ c ∈ x.1, c < 256) ∧ ∀ c ∈ x.2.1, c < 256)
    (e : opsToRealOps h g = .ok bytes) : InstrsOk g := by
  refine ⟨?_, ?_, h2⟩
  · by_contra hno
    push Not at hno
    obtain ⟨i, hi, hlt⟩ := hno
    rcases wire_fails h ⟨i, hi, by omega⟩ with x | x <;> rw [x] at e <;> cases e
  · simp only [opsToRealOps, serialize, bind, Except.bind] at e
    cases e1 : outputOps h 1 ((Delta1.toggleRanges g.toggl).ot.map .toggl) BitBucket.empty with
    | error x => rw [e1] at e; cases e
    | ok b1 =>
      rw [e1] at e
      dsimp only at e
      obtain ⟨-, w1, hw1⟩ := output_sent hc h257 (by omega) _ (by intro op hop; obtain ⟨i, -, rfl⟩ := List.mem_map.1 hop; trivial) wrote_empty e1
      cases e2 : outputOps h 2 ((Delta1.toggleRanges g.toggl).otr.map fun x => .trang x.1 x.2) b1 with
      | error x => rw [e2] at e; cases e
      | ok b2 =>
        rw [e2] at e
        dsimp only at e
        obtain ⟨-, w2, hw2⟩ := output_sent hc h257 (by omega) _ (by intro op hop; obtain ⟨i, -, rfl⟩ := List.mem_map.1 hop; trivial) hw1 e2
        cases e3 : outputOps h 3 (g.clone.map fun x => .clone x.1 x.2.1 x.2.2) b2 with
        | error x => rw [e3] at e; cases e
        | ok b3 =>
          obtain ⟨hok, -⟩ := output_sent hc h257 (by omega) _ (by intro op hop; obtain ⟨i, hi, rfl⟩ := List.mem_map.1 hop; exact h1 i hi) hw2 e3
          intro x hx
          exact hok _ (List.mem_map.2 ⟨x, hx, rfl⟩)

/-! ### Executing what was read -/

theorem execList_append (a b : List Delta1.Op) : ∀ c : Codec, execList (a ++ b) c = (execList a c).bind (execList b) := by
  induction a with
  | nil => intro c; rfl
  | cons x a ih =>
    intro c
    simp only [List.cons_append, execList, bind, Except.bind]
    cases execOp c x with
    | error e => rfl
    | ok c => exact ih c

theorem toggleAll_append (a b : List Nat) : ∀ c : Codec, toggleAll (a ++ b) c = (toggleAll a c).bind (toggleAll b) := by
  induction a with
  | nil => intro c; rfl
  | cons x a ih =>
    intro c
    simp only [List.cons_append, toggleAll, bind, Except.bind]
    cases toggle c x with
    | error e => rfl
    | ok c => exact ih c

theorem exec_toggls (is : List Nat) : ∀ c : Codec, execList (is.map .toggl) c = toggleAll is c := by
  induction is with
  | nil => intro c; rfl
  | cons i is ih =>
    intro c
    simp only [List.map_cons, execList, toggleAll, execOp, bind, Except.bind]
    cases toggle c i with
    | error e => rfl
    | ok c => exact ih c

theorem exec_trangs (rs : List (Nat × Nat)) : ∀ c : Codec, execList (rs.map fun x => .trang x.1 x.2) c =
    toggleAll (rs.flatMap fun x => (List.range (x.2 + 1 - x.1)).map (x.1 + ·)) c := by
  induction rs with
  | nil => intro c; rfl
  | cons r rs ih =>
    intro c
    simp only [List.map_cons, execList, List.flatMap_cons, execOp, bind, toggleAll_append]
    congr 1
    funext c
    exact ih c

theorem exec_clones (xs : List (Nat × Str × Bool)) : ∀ c : Codec, execList (xs.map fun x => .clone x.1 x.2.1) c = cloneAll xs c := by
  induction xs with
  | nil => intro c; rfl
  | cons x xs ih =>
    intro c
    obtain ⟨k, v, b⟩ := x
    simp only [List.map_cons, execList, cloneAll, execOp, bind, Except.bind]
    cases c.keyIdx.get? k with
    | none => rfl
    | some key =>
      dsimp only
      cases storeEntry c key v with
      | error e => rfl
      | ok c => exact ih c

theorem exec_kvstos (xs : List (Str × Str × Bool)) : ∀ c : Codec, execList (xs.map fun x => .kvsto x.1 x.2.1) c = kvstoAll xs c := by
  induction xs with
  | nil => intro c; rfl
  | cons x xs ih =>
    intro c
    obtain ⟨k, v, b⟩ := x
    simp only [List.map_cons, execList, kvstoAll, execOp, bind, Except.bind]
    cases storeEntry c k v with
    | error e => rfl
    | ok c => exact ih c

/-- Executing the operations that were read is executing those that were sent. -/
theorem hear_eq {h : Huffman} {g : Instrs} {bytes : Str} (hr : realOpsToOps h bytes = .ok g.ops) (c : Codec) :
    hear h c bytes = (execOps c g).map generate := by
  have : ∀ c, execList g.ops c = (do
      let c ← toggleAll ((Delta1.toggleRanges g.toggl).ot ++ (Delta1.toggleRanges g.toggl).otr.flatMap fun x => (List.range (x.2 + 1 - x.1)).map (x.1 + ·)) c
      let c ← cloneAll g.clone c
      kvstoAll g.kvsto c) := by
    intro c
    simp only [Instrs.ops, Instrs.plain, List.flatMap_cons, List.flatMap_nil, List.append_nil, execList_append, exec_toggls, toggleAll_append, bind]
    cases toggleAll (Delta1.toggleRanges g.toggl).ot c with
    | error e => rfl
    | ok c =>
      simp only [Except.bind, execList_append, exec_trangs]
      cases toggleAll ((Delta1.toggleRanges g.toggl).otr.flatMap fun x => (List.range (x.2 + 1 - x.1)).map (x.1 + ·)) c with
      | error e => rfl
      | ok c =>
        simp only [Except.bind, execList_append, exec_clones]
        cases cloneAll g.clone c with
        | error e => rfl
        | ok c => simp only [Except.bind, exec_kvstos]
  unfold hear execOps
  simp only [hr, bind, Except.bind]
  cases pin c with
  | error e => rfl
  | ok c =>
    simp only [this, bind, Except.bind, pure, Except.pure]
    cases toggleAll ((Delta1.toggleRanges g.toggl).ot ++ (Delta1.toggleRanges g.toggl).otr.flatMap fun x => (List.range (x.2 + 1 - x.1)).map (x.1 + ·)) (findOrMake c) with
    | error e => rfl
    | ok c =>
      dsimp only
      cases cloneAll g.clone c with
      | error e => rfl
      | ok c =>
        dsimp only
        cases kvstoAll g.kvsto c with
        | error e => rfl
        | ok c => rfl

end Verif.DeltaBohe
