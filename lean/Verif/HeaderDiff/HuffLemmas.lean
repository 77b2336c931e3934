import Verif.HeaderDiff.Huffman
import Verif.PyLemmas
import Verif.Bits.Run
import Verif.Bits.Use
import Mathlib.Tactic.Linarith
import Mathlib.Tactic.Ring
/-
The Huffman coder of headerdiff: what the bit encoder writes, what the bit decoder reads, the tree.
-/
namespace Verif.HeaderDiff
open Verif Verif.Bits Verif.Bits.Spec

/-! ### The tree -/

/-- The leaf reached from a node by a path (`true` is right). -/
def Path : Node → List Bool → Nat → Prop
  | .leaf _ s, bits, sym => bits = [] ∧ sym = s
  | .inner _ _ _, [], _ => False
  | .inner _ a b, x :: bits, sym => if x then Path b bits sym else Path a bits sym

/-- The symbols of a tree. -/
def Node.syms : Node → List Nat
  | .leaf _ s => [s]
  | .inner _ a b => a.syms ++ b.syms

/-- The symbols of a list of trees. -/
def symsOf (l : List Node) : List Nat := l.flatMap Node.syms

theorem symsOf_perm {a b : List Node} (h : a.Perm b) : (symsOf a).Perm (symsOf b) := h.flatMap_right _

theorem insertNode_perm (n : Node) (l : List Node) : (insertNode n l).Perm (n :: l) := by
  induction l with
  | nil => exact List.Perm.refl _
  | cons m l ih =>
    unfold insertNode
    split
    · exact List.Perm.refl _
    · exact (ih.cons m).trans (List.Perm.swap n m l)

theorem sort_perm (l : List Node) : (sortNodes l).Perm l := by
  have : ∀ acc, (l.foldl (fun acc n => insertNode n acc) acc).Perm (acc ++ l) := by
    induction l with
    | nil => intro acc; simp
    | cons n l ih =>
      intro acc
      rw [List.foldl_cons]
      refine (ih _).trans ?_
      refine ((insertNode_perm n acc).append_right l).trans ?_
      rw [List.cons_append]
      exact List.perm_middle.symm
  simpa [sortNodes] using this []

theorem pickNode_spec (l1 l2 : List Node) (h : 0 < l1.length + l2.length) :
    ∃ n a b, pickNode l1 l2 = .ok (n, a, b) ∧ (n :: (a ++ b)).Perm (l1 ++ l2) := by
  cases l1 with
  | nil =>
    cases l2 with
    | nil => simp at h
    | cons b l2 => exact ⟨b, [], l2, rfl, List.Perm.refl _⟩
  | cons a l1 =>
    cases l2 with
    | nil => exact ⟨a, l1, [], rfl, List.Perm.refl _⟩
    | cons b l2 =>
      unfold pickNode
      by_cases hp : a.priority ≤ b.priority
      · exact ⟨a, l1, b :: l2, if_pos hp, List.Perm.refl _⟩
      · exact ⟨b, a :: l1, l2, if_neg hp, List.perm_middle.symm⟩

theorem treeLoop_spec (fuel : Nat) : ∀ l1 l2 : List Node, l1.length + l2.length ≤ fuel → 0 < fuel →
    2 ≤ l1.length + l2.length ∨ (l1 = [] ∧ ∃ p a b, l2 = [Node.inner p a b]) →
    ∃ p a b, treeLoop fuel l1 l2 = .ok ([], [Node.inner p a b]) ∧ (Node.inner p a b).syms.Perm (symsOf (l1 ++ l2)) := by
  induction fuel with
  | zero => intro _ _ _ h; omega
  | succ fuel ih =>
    intro l1 l2 hf _ hc
    unfold treeLoop
    by_cases h2 : 2 ≤ l1.length + l2.length
    · rw [if_pos h2]
      obtain ⟨n1, a1, b1, e1, p1⟩ := pickNode_spec l1 l2 (by omega)
      have hl1 := p1.length_eq
      simp only [List.length_cons, List.length_append] at hl1
      obtain ⟨n2, a2, b2, e2, p2⟩ := pickNode_spec a1 b1 (by omega)
      have hl2 := p2.length_eq
      simp only [List.length_cons, List.length_append] at hl2
      simp only [e1, e2]
      have hadd : n1.add n2 = Node.inner (n1.priority + n2.priority) n1 n2 := rfl
      obtain ⟨p, a, b, e, hp⟩ := ih a2 (b2 ++ [n1.add n2])
        (by simp only [List.length_append, List.length_singleton]; omega) (by omega) (by
          by_cases hz : a2.length + b2.length = 0
          · right
            have ha : a2 = [] := List.length_eq_zero_iff.1 (by omega)
            have hb : b2 = [] := List.length_eq_zero_iff.1 (by omega)
            exact ⟨ha, _, _, _, by rw [hb, hadd]; rfl⟩
          · left
            simp only [List.length_append, List.length_singleton]
            omega)
      refine ⟨p, a, b, e, hp.trans ?_⟩
      have h3 : (symsOf (a2 ++ (b2 ++ [n1.add n2]))).Perm (symsOf (n1 :: n2 :: (a2 ++ b2))) := by
        unfold symsOf
        rw [← List.append_assoc, List.flatMap_append]
        refine List.perm_append_comm.trans ?_
        simp [hadd, Node.syms]
      exact h3.trans (symsOf_perm ((p2.cons n1).trans p1))
    · rw [if_neg h2]
      rcases hc with hc | ⟨rfl, p, a, b, rfl⟩
      · exact absurd hc h2
      · exact ⟨p, a, b, rfl, by simp [symsOf]⟩

theorem symsOf_leaves (items : List (Nat × Nat)) : symsOf (items.map fun kv => Node.leaf kv.2 kv.1) = items.map (·.1) := by
  induction items with
  | nil => rfl
  | cons x xs ih =>
    rw [List.map_cons, List.map_cons, ← ih]
    rfl

theorem createTree_spec (items : List (Nat × Nat)) (h : 2 ≤ items.length) :
    ∃ p a b, createTree items = .ok (Node.inner p a b) ∧ (Node.inner p a b).syms.Perm (items.map (·.1)) := by
  have hp := sort_perm (items.map fun kv => Node.leaf kv.2 kv.1)
  have hl := hp.length_eq
  rw [List.length_map] at hl
  obtain ⟨p, a, b, e, hs⟩ := treeLoop_spec (items.length + 1) (sortNodes (items.map fun kv => Node.leaf kv.2 kv.1)) []
    (by simp only [List.length_nil]; omega) (by omega) (by left; simp only [List.length_nil]; omega)
  refine ⟨p, a, b, ?_, hs.trans ?_⟩
  · simp only [createTree, e]
  · rw [List.append_nil]
    refine (symsOf_perm hp).trans ?_
    rw [symsOf_leaves]

/-! ### The codes -/

theorem encodings_syms (n : Node) : ∀ v l, (n.encodings v l).map (·.1) = n.syms := by
  induction n with
  | leaf p s => intro v l; rfl
  | inner p a b iha ihb => intro v l; simp [Node.encodings, Node.syms, iha, ihb]

theorem encodings_path (n : Node) : ∀ v l s v' l', (s, (v', l')) ∈ n.encodings v l →
    ∃ bits, Path n bits s ∧ v' = v * 2 ^ bits.length + toNat bits ∧ l' = l + bits.length := by
  induction n with
  | leaf p s0 =>
    intro v l s v' l' h
    simp only [Node.encodings, List.mem_singleton, Prod.mk.injEq] at h
    obtain ⟨rfl, rfl, rfl⟩ := h
    exact ⟨[], ⟨rfl, rfl⟩, by simp [toNat], by simp⟩
  | inner p a b iha ihb =>
    intro v l s v' l' h
    simp only [Node.encodings, List.mem_append] at h
    rcases h with h | h
    · obtain ⟨bits, h1, h2, h3⟩ := iha _ _ _ _ _ h
      refine ⟨false :: bits, by simpa [Path] using h1, ?_, by simp [h3]; omega⟩
      rw [h2, toNat_cons, Nat.shiftLeft_eq, List.length_cons, pow_succ]
      simp
      ring
    · obtain ⟨bits, h1, h2, h3⟩ := ihb _ _ _ _ _ h
      refine ⟨true :: bits, by simpa [Path] using h1, ?_, by simp [h3]; omega⟩
      rw [h2, toNat_cons, Nat.shiftLeft_eq, List.length_cons, pow_succ]
      simp
      ring

theorem foldl_set {β : Type} (l : List (Nat × β)) : ∀ d : Dict Nat β, (d.keys ++ l.map (·.1)).Nodup →
    l.foldl (fun d p => Dict.set d p.1 p.2) d = d ++ l := by
  induction l with
  | nil => intro d _; simp
  | cons p l ih =>
    intro d h
    have hp : p.1 ∉ d.keys := by
      intro hc
      have := List.nodup_append.1 h
      exact this.2.2 _ hc _ (by simp) rfl
    rw [List.foldl_cons, Dict.set_new hp, ih]
    · simp
    · simpa [Dict.keys] using h

/-- What a codec made from a table knows. -/
structure Codes (h : HCodec) (syms : List Nat) : Prop where
  root : ∃ p a b, h.root = Node.inner p a b
  keys : ∀ s, Dict.has h.encoder s = true ↔ s ∈ syms
  path : ∀ s v l, Dict.get? h.encoder s = some (v, l) → Path h.root (natBits l v) s

theorem make_spec (order : List (Nat × Nat) → List (Nat × Nat)) (stats : List (Nat × Nat))
    (hperm : (order (normalizeStats stats)).Perm (normalizeStats stats)) (hnd : (stats.map (·.1)).Nodup)
    (hlen : 2 ≤ stats.length) :
    ∃ h, HCodec.make order stats = .ok h ∧ Codes h (stats.map (·.1)) := by
  have hl := hperm.length_eq
  have hkeys : (normalizeStats stats).map (·.1) = stats.map (·.1) := by simp [normalizeStats]
  rw [show (normalizeStats stats).length = stats.length by simp [normalizeStats]] at hl
  obtain ⟨p, a, b, e, hs⟩ := createTree_spec (order (normalizeStats stats)) (by omega)
  have hs2 : (Node.inner p a b).syms.Perm (stats.map (·.1)) := hkeys ▸ hs.trans (hperm.map _)
  have hnd2 : (((Node.inner p a b).encodings 0 0).map (·.1)).Nodup := by
    rw [encodings_syms]
    exact hs2.nodup_iff.2 hnd
  have hfold := foldl_set ((Node.inner p a b).encodings 0 0) [] (by simpa [Dict.keys] using hnd2)
  rw [List.nil_append] at hfold
  refine ⟨{ encoder := (Node.inner p a b).encodings 0 0, root := Node.inner p a b }, ?_, ⟨p, a, b, rfl⟩, ?_, ?_⟩
  · simp only [HCodec.make, e, bind, Except.bind, hfold]
  · intro s
    rw [← hs2.mem_iff, ← encodings_syms (Node.inner p a b) 0 0]
    cases hg : Dict.get? ((Node.inner p a b).encodings 0 0) s with
    | none =>
      have := Dict.get?_none.1 hg
      simp only [Dict.keys] at this
      simp only [Dict.has, hg, Option.isSome_none, Bool.false_eq_true, false_iff]
      exact this
    | some v =>
      have := Dict.mem_keys_of_mem (Dict.get?_mem hg)
      simp only [Dict.keys] at this
      simp only [Dict.has, hg, Option.isSome_some, true_iff]
      exact this
  · intro s v l hg
    obtain ⟨bits, h1, h2, h3⟩ := encodings_path _ _ _ _ _ _ (Dict.get?_mem hg)
    rw [Nat.zero_mul, Nat.zero_add] at h2
    rw [Nat.zero_add] at h3
    rw [h2, natBits_toNat l bits h3.symm]
    exact h1

/-! ### Writing bits -/

/-- The encoder has written these bits. -/
structure Written (e : BitEncoder) (bits : List Bool) : Prop where
  bits : bitsOf e.bytes ++ natBits (8 - e.free) e.current = bits
  bytes : ∀ x ∈ e.bytes, x < 256
  current : e.current < 2 ^ (8 - e.free)
  free1 : 1 ≤ e.free
  free8 : e.free ≤ 8

theorem written_reset : Written BitEncoder.reset [] :=
  ⟨by simp [BitEncoder.reset, natBits], by simp [BitEncoder.reset], by simp [BitEncoder.reset],
    by simp [BitEncoder.reset], by simp [BitEncoder.reset]⟩

theorem mask_mod (v k : Nat) (hk : k ≤ 8) : v &&& (0xFF >>> (8 - k)) = v % 2 ^ k := by
  have : 0xFF >>> (8 - k) = 2 ^ k - 1 := by
    revert k
    decide
  rw [this, Nat.and_two_pow_sub_one_eq_mod]

theorem natBits_join (w u x y : Nat) (hy : y < 2 ^ u) : natBits (w + u) (x * 2 ^ u + y) = natBits w x ++ natBits u y := by
  rw [natBits_add, Nat.mul_comm x, Nat.mul_add_div (Nat.two_pow_pos u), Nat.div_eq_of_lt hy, Nat.add_zero,
    ← natBits_mod u (2 ^ u * x + y), Nat.mul_add_mod, natBits_mod]

theorem pushLoop_spec (fuel : Nat) : ∀ (e : BitEncoder) (bits : List Bool) (v c : Nat), Written e bits → c + 1 ≤ fuel →
    ∃ e', e.pushLoop fuel v c = .ok e' ∧ Written e' (bits ++ natBits c v) := by
  induction fuel with
  | zero => intro _ _ _ _ _ h; omega
  | succ fuel ih =>
    intro e bits v c hw hf
    unfold BitEncoder.pushLoop
    by_cases hc : c = 0
    · rw [if_pos hc]
      exact ⟨e, rfl, by simpa [hc, natBits] using hw⟩
    · rw [if_neg hc]
      have h1 := hw.free1
      have h8 := hw.free8
      have hcur := hw.current
      by_cases hfree : e.free ≤ c
      · rw [if_pos hfree]
        rw [mask_mod _ _ h8, Nat.shiftLeft_eq, Nat.shiftRight_eq_div_pow]
        have hmod : v / 2 ^ (c - e.free) % 2 ^ e.free < 2 ^ e.free := Nat.mod_lt _ (Nat.two_pow_pos _)
        have hlt : e.current * 2 ^ e.free + v / 2 ^ (c - e.free) % 2 ^ e.free < 256 := by
          have : (e.current + 1) * 2 ^ e.free ≤ 2 ^ (8 - e.free) * 2 ^ e.free := Nat.mul_le_mul_right _ hcur
          rw [← pow_add, show 8 - e.free + e.free = 8 by omega] at this
          have h256 : (2 : Nat) ^ 8 = 256 := by norm_num
          rw [Nat.add_mul] at this
          omega
        simp only [chr, if_pos hlt, bind, Except.bind]
        obtain ⟨e', he', hw'⟩ := ih { bytes := e.bytes ++ [e.current * 2 ^ e.free + v / 2 ^ (c - e.free) % 2 ^ e.free], current := 0, free := 8 }
          (bits ++ natBits e.free (v / 2 ^ (c - e.free))) v (c - e.free)
          ⟨by
            have hj := natBits_join (8 - e.free) e.free e.current _ hmod
            rw [show 8 - e.free + e.free = 8 by omega, natBits_mod] at hj
            rw [← hw.bits]
            rw [bitsOf_append, bitsOf_cons, byteBits, hj]
            simp [natBits], by
            intro x hx
            rcases List.mem_append.1 hx with hx | hx
            · exact hw.bytes x hx
            · rw [List.mem_singleton.1 hx]; exact hlt, by simp, by simp, by simp⟩ (by omega)
        refine ⟨e', he', ?_⟩
        have := natBits_add e.free (c - e.free) v
        rw [show e.free + (c - e.free) = c by omega] at this
        rw [this, ← List.append_assoc]
        exact hw'
      · rw [if_neg hfree]
        rw [mask_mod _ _ (by omega), Nat.shiftLeft_eq]
        have hmod : v % 2 ^ c < 2 ^ c := Nat.mod_lt _ (Nat.two_pow_pos _)
        obtain ⟨e', he', hw'⟩ := ih { e with current := e.current * 2 ^ c + v % 2 ^ c, free := e.free - c } (bits ++ natBits c v) v 0
          ⟨by
            have hj := natBits_join (8 - e.free) c e.current _ hmod
            rw [natBits_mod] at hj
            rw [← hw.bits]
            have : 8 - (e.free - c) = 8 - e.free + c := by omega
            simp only [this, hj, List.append_assoc], hw.bytes, by
            have h2 : (e.current + 1) * 2 ^ c ≤ 2 ^ (8 - e.free) * 2 ^ c := Nat.mul_le_mul_right _ hcur
            have : 8 - (e.free - c) = 8 - e.free + c := by omega
            simp only [this, pow_add]
            rw [Nat.add_mul] at h2
            omega, by simp only; omega, by simp only; omega⟩ (by omega)
        exact ⟨e', he', by simpa [natBits] using hw'⟩

theorem code_spec {e : BitEncoder} {bits : List Bool} (hw : Written e bits) : e.code = .ok (pack bits) := by
  have h1 := hw.free1
  have h8 := hw.free8
  have hcur := hw.current
  unfold BitEncoder.code
  by_cases hf : e.free < 8
  · rw [if_pos hf, Nat.shiftLeft_eq]
    have hlt : e.current * 2 ^ e.free < 256 := by
      have : e.current * 2 ^ e.free < 2 ^ (8 - e.free) * 2 ^ e.free :=
        Nat.mul_lt_mul_of_pos_right hcur (Nat.two_pow_pos _)
      rwa [← pow_add, show 8 - e.free + e.free = 8 by omega] at this
    simp only [chr, if_pos hlt, bind, Except.bind]
    congr 1
    have hlen : bits.length = 8 * e.bytes.length + (8 - e.free) := by rw [← hw.bits]; simp
    apply pack_unique
    · intro x hx
      rcases List.mem_append.1 hx with hx | hx
      · exact hw.bytes x hx
      · rw [List.mem_singleton.1 hx]; exact hlt
    · have hj := natBits_join (8 - e.free) e.free e.current 0 (Nat.two_pow_pos _)
      rw [show 8 - e.free + e.free = 8 by omega, Nat.add_zero] at hj
      rw [bitsOf_append, bitsOf_cons, bitsOf_nil, List.append_nil, byteBits, hj, ← List.append_assoc, hw.bits, padZeros]
      congr 1
      rw [hlen]
      have h3 : (8 - (8 * e.bytes.length + (8 - e.free)) % 8) % 8 = e.free := by omega
      rw [h3]
      apply List.ext_getElem
      · simp
      · intro i h1 h2
        simp [natBits]
  · rw [if_neg hf]
    have h : e.free = 8 := by omega
    congr 1
    apply pack_unique
    · exact hw.bytes
    · rw [← hw.bits, h]
      simp [natBits, padZeros]

/-- The bits of a text. -/
def textBits (h : HCodec) (s : List Nat) : List Bool :=
  s.flatMap fun c => match Dict.get? h.encoder c with
    | some (v, l) => natBits l v
    | none => []

theorem pushAll_spec (h : HCodec) (s : List Nat) : ∀ (e : BitEncoder) (bits : List Bool), Written e bits →
    ((∀ c ∈ s, Dict.has h.encoder c = true) → ∃ e', h.pushAll s e = .ok e' ∧ Written e' (bits ++ textBits h s)) ∧
    ((∃ c ∈ s, Dict.has h.encoder c = false) → h.pushAll s e = .error .key) := by
  induction s with
  | nil => exact fun e bits hw => ⟨fun _ => ⟨e, rfl, by simpa [textBits] using hw⟩, by simp⟩
  | cons c s ih =>
    intro e bits hw
    cases hg : Dict.get? h.encoder c with
    | none =>
      refine ⟨fun hh => ?_, fun _ => by simp only [HCodec.pushAll, hg]⟩
      have := hh c (by simp)
      simp [Dict.has, hg] at this
    | some vl =>
      obtain ⟨v, l⟩ := vl
      obtain ⟨e1, he1, hw1⟩ := pushLoop_spec (l + 2) e bits v l hw (by omega)
      obtain ⟨ih1, ih2⟩ := ih e1 _ hw1
      have hb : e.pushBits v l = .ok e1 := he1
      refine ⟨fun hh => ?_, fun hh => ?_⟩
      · obtain ⟨e2, he2, hw2⟩ := ih1 fun x hx => hh x (by simp [hx])
        refine ⟨e2, ?_, ?_⟩
        · simp only [HCodec.pushAll, hg, hb, bind, Except.bind, he2]
        · have : textBits h (c :: s) = natBits l v ++ textBits h s := by simp [textBits, hg]
          rw [this, ← List.append_assoc]
          exact hw2
      · obtain ⟨x, hx, hx2⟩ := hh
        rcases List.mem_cons.1 hx with rfl | hx
        · simp [Dict.has, hg] at hx2
        · simp only [HCodec.pushAll, hg, hb, bind, Except.bind, ih2 ⟨x, hx, hx2⟩]

theorem encode_spec (h : HCodec) (s : Str) (hs : ∀ c ∈ s, Dict.has h.encoder c = true) (he : Dict.has h.encoder 256 = true) :
    h.encode s = .ok (pack (textBits h (s ++ [256]))) := by
  obtain ⟨e1, h1, hw1⟩ := (pushAll_spec h s _ _ written_reset).1 hs
  obtain ⟨e2, h2, hw2⟩ := (pushAll_spec h [256] _ _ hw1).1 (by simpa using he)
  simp only [HCodec.encode, h1, h2, bind, Except.bind, code_spec hw2]
  simp [textBits]

theorem encode_error (h : HCodec) (s : Str) (hs : ∃ c ∈ s ++ [256], Dict.has h.encoder c = false) :
    h.encode s = .error .key := by
  by_cases hc : ∃ c ∈ s, Dict.has h.encoder c = false
  · simp only [HCodec.encode, (pushAll_spec h s _ _ written_reset).2 hc, bind, Except.bind]
  · push Not at hc
    obtain ⟨e1, h1, hw1⟩ := (pushAll_spec h s _ _ written_reset).1 (by simpa using hc)
    obtain ⟨c, hm, hf⟩ := hs
    rcases List.mem_append.1 hm with hm | hm
    · exact absurd hf (hc c hm)
    · have : c = 256 := by simpa using hm
      simp only [HCodec.encode, h1, (pushAll_spec h [256] _ _ hw1).2 ⟨c, hm, hf⟩, bind, Except.bind]

/-! ### Reading bits -/

/-- The decoder has read `n` bits of its code. -/
structure Seen (d : BitDecoder) (code : List Nat) (n : Nat) : Prop where
  code : d.code = code
  pos : n + 8 = 8 * d.index + d.bit
  bit1 : 1 ≤ d.bit
  bit8 : d.bit ≤ 8
  current : d.bit < 8 → d.code[d.index - 1]? = some d.current

theorem bitsOf_get (code : List Nat) : ∀ p, (bitsOf code)[p]? = (code[p / 8]?).map fun c => c.testBit (7 - p % 8) := by
  induction code with
  | nil => intro p; simp
  | cons c code ih =>
    intro p
    rw [bitsOf_cons]
    by_cases hp : p < 8
    · rw [List.getElem?_append_left (by simpa using hp), Nat.div_eq_of_lt hp, Nat.mod_eq_of_lt hp]
      simp [byteBits, natBits, hp]
    · rw [List.getElem?_append_right (by simp; omega), byteBits_length, ih]
      have h1 : p / 8 = (p - 8) / 8 + 1 := by omega
      have h2 : (p - 8) % 8 = p % 8 := by omega
      rw [h1, h2, List.getElem?_cons_succ]

theorem masks_get (c j : Nat) (hj : j < 8) : ∃ m, masks[j]? = some m ∧ ((c &&& m ≠ 0) ↔ c.testBit (7 - j) = true) := by
  have hm : masks[j]? = some (2 ^ (7 - j)) := by
    revert j
    decide
  refine ⟨_, hm, ?_⟩
  rw [Nat.and_two_pow]
  cases c.testBit (7 - j) <;> simp

theorem nextBit_spec {d : BitDecoder} {code : List Nat} {n : Nat} {b : Bool} (hd : Seen d code n)
    (hb : (bitsOf code)[n]? = some b) :
    ∃ x d', d.nextBit = .ok (x, d') ∧ (x ≠ 0 ↔ b = true) ∧ Seen d' code (n + 1) := by
  have hpos := hd.pos
  have h1 := hd.bit1
  have h8 := hd.bit8
  rw [bitsOf_get] at hb
  unfold BitDecoder.nextBit
  by_cases hbit : d.bit ≥ 8
  · have e1 : n / 8 = d.index := by omega
    have e2 : n % 8 = 0 := by omega
    rw [e1, e2] at hb
    cases hc : code[d.index]? with
    | none => simp [hc] at hb
    | some c =>
      rw [hc] at hb
      simp only [Option.map_some, Option.some.injEq] at hb
      obtain ⟨m, hm, hx⟩ := masks_get c 0 (by omega)
      refine ⟨c &&& m, { d with current := c, index := d.index + 1, bit := 1 }, ?_, ?_, ?_⟩
      · rw [if_pos hbit]
        simp only [hd.code, hc, bind, Except.bind, hm]
      · rw [hx, hb]
      · exact ⟨hd.code, by simp only; omega, by simp, by simp, fun _ => by simp [hd.code, hc]⟩
  · have hcur := hd.current (by omega)
    have e1 : n / 8 = d.index - 1 := by omega
    have e2 : n % 8 = d.bit := by omega
    rw [hd.code] at hcur
    rw [e1, e2, hcur] at hb
    simp only [Option.map_some, Option.some.injEq] at hb
    obtain ⟨m, hm, hx⟩ := masks_get d.current d.bit (by omega)
    refine ⟨d.current &&& m, { d with bit := d.bit + 1 }, ?_, ?_, ?_⟩
    · rw [if_neg hbit]
      simp only [bind, Except.bind, hm]
    · rw [hx, hb]
    · exact ⟨hd.code, by simp only; omega, by simp, by simp only; omega, fun _ => by simpa [hd.code] using hcur⟩

theorem descend_spec (t : Node) : ∀ (bits : List Bool) (s : Nat) {d : BitDecoder} {code : List Nat} {n : Nat} {rest : List Bool},
    Path t bits s → Seen d code n → (bitsOf code).drop n = bits ++ rest →
    ∃ d', t.descend d = .ok (s, d') ∧ Seen d' code (n + bits.length) := by
  induction t with
  | leaf p s0 =>
    intro bits s d code n rest hp hd hr
    obtain ⟨rfl, rfl⟩ := hp
    exact ⟨d, rfl, hd⟩
  | inner p a b iha ihb =>
    intro bits s d code n rest hp hd hr
    cases bits with
    | nil => exact hp.elim
    | cons x bits =>
      have hb : (bitsOf code)[n]? = some x := by
        have := congrArg (fun l => l[0]?) hr
        simpa using this
      obtain ⟨y, d1, e1, hy, hd1⟩ := nextBit_spec hd hb
      have hr1 : (bitsOf code).drop (n + 1) = bits ++ rest := by
        rw [← List.drop_drop, hr]
        rfl
      cases x with
      | true =>
        obtain ⟨d2, e2, hd2⟩ := ihb bits s (by simpa [Path] using hp) hd1 hr1
        refine ⟨d2, ?_, by simpa [Nat.add_assoc, Nat.add_comm 1] using hd2⟩
        simp only [Node.descend, e1, bind, Except.bind, e2]
        rw [if_pos (hy.2 rfl)]
      | false =>
        obtain ⟨d2, e2, hd2⟩ := iha bits s (by simpa [Path] using hp) hd1 hr1
        refine ⟨d2, ?_, by simpa [Nat.add_assoc, Nat.add_comm 1] using hd2⟩
        simp only [Node.descend, e1, bind, Except.bind, e2]
        rw [if_neg (by simp [hy])]

theorem decodeLoop_spec {h : HCodec} {syms : List Nat} (hc : Codes h syms) (s : Str) (hs : ∀ c ∈ s, c < 256) :
    ∀ (fuel : Nat) (d : BitDecoder) (code : List Nat) (n : Nat) (rest : List Bool) (res : Str), s.length < fuel →
    (∀ c ∈ s ++ [256], Dict.has h.encoder c = true) → Seen d code n →
    (bitsOf code).drop n = textBits h (s ++ [256]) ++ rest →
    ∃ d', h.decodeLoop fuel d res = .ok (res ++ s, d') ∧ Seen d' code (n + (textBits h (s ++ [256])).length) := by
  induction s with
  | nil =>
    intro fuel d code n rest res hf hh hd hr
    obtain ⟨fuel, rfl⟩ : ∃ k, fuel = k + 1 := ⟨fuel - 1, by simp at hf; omega⟩
    cases hg : Dict.get? h.encoder 256 with
    | none => have := hh 256 (by simp); simp [Dict.has, hg] at this
    | some vl =>
      obtain ⟨v, l⟩ := vl
      have ht : textBits h ([] ++ [256]) = natBits l v := by simp [textBits, hg]
      rw [ht] at hr ⊢
      obtain ⟨d1, e1, hd1⟩ := descend_spec h.root _ _ (hc.path _ _ _ hg) hd hr
      refine ⟨d1, ?_, hd1⟩
      simp only [HCodec.decodeLoop, e1, bind, Except.bind]
      simp
  | cons c s ih =>
    intro fuel d code n rest res hf hh hd hr
    obtain ⟨fuel, rfl⟩ : ∃ k, fuel = k + 1 := ⟨fuel - 1, by simp at hf; omega⟩
    cases hg : Dict.get? h.encoder c with
    | none => have := hh c (by simp); simp [Dict.has, hg] at this
    | some vl =>
      obtain ⟨v, l⟩ := vl
      have ht : textBits h (c :: s ++ [256]) = natBits l v ++ textBits h (s ++ [256]) := by simp [textBits, hg]
      rw [ht, List.append_assoc] at hr
      obtain ⟨d1, e1, hd1⟩ := descend_spec h.root _ _ (hc.path _ _ _ hg) hd hr
      have hr1 : (bitsOf code).drop (n + (natBits l v).length) = textBits h (s ++ [256]) ++ rest := by
        rw [← List.drop_drop, hr, List.drop_left]
      obtain ⟨d2, e2, hd2⟩ := ih (fun x hx => hs x (by simp [hx])) fuel d1 code _ rest (res ++ [c])
        (by simp only [List.length_cons] at hf; omega) (fun x hx => hh x (by
          rw [List.cons_append]; exact List.mem_cons_of_mem _ hx)) hd1 hr1
      have hlt := hs c (by simp)
      refine ⟨d2, ?_, ?_⟩
      · simp only [HCodec.decodeLoop, e1, bind, Except.bind, if_pos hlt, if_neg (show c ≠ 256 by omega), e2]
        simp
      · rw [ht, List.length_append, ← Nat.add_assoc]
        exact hd2

theorem pack_length (x : List Bool) : (pack x).length = (x.length + 7) / 8 := by
  have h := congrArg List.length (bits_pack x)
  simp only [bitsOf_length, List.length_append, padZeros, List.length_replicate] at h
  omega

theorem code_pos {h : HCodec} {syms : List Nat} (hc : Codes h syms) {c v l : Nat} (hg : Dict.get? h.encoder c = some (v, l)) :
    0 < l := by
  obtain ⟨p, a, b, hr⟩ := hc.root
  have := hc.path _ _ _ hg
  rw [hr] at this
  rcases l with _ | l
  · simp [natBits, Path] at this
  · omega

theorem textBits_length {h : HCodec} {syms : List Nat} (hc : Codes h syms) (s : List Nat)
    (hs : ∀ c ∈ s, Dict.has h.encoder c = true) : s.length ≤ (textBits h s).length := by
  induction s with
  | nil => simp
  | cons c s ih =>
    cases hg : Dict.get? h.encoder c with
    | none => have := hs c (by simp); simp [Dict.has, hg] at this
    | some vl =>
      obtain ⟨v, l⟩ := vl
      have ht : textBits h (c :: s) = natBits l v ++ textBits h s := by simp [textBits, hg]
      have := ih fun x hx => hs x (by simp [hx])
      have := code_pos hc hg
      rw [ht, List.length_append, natBits_length, List.length_cons]
      omega

/-- Decoding what was encoded, whatever follows. -/
theorem decode_spec {h : HCodec} {syms : List Nat} (hc : Codes h syms) (s : Str) (hs : ∀ c ∈ s, c < 256)
    (hh : ∀ c ∈ s ++ [256], Dict.has h.encoder c = true) (rest : List Nat) :
    h.decode (pack (textBits h (s ++ [256])) ++ rest) = .ok (s, (pack (textBits h (s ++ [256]))).length) := by
  set T := textBits h (s ++ [256]) with hT
  have hlen := textBits_length hc (s ++ [256]) hh
  rw [← hT, List.length_append, List.length_singleton] at hlen
  have hpl := pack_length T
  obtain ⟨d, e, hd⟩ := decodeLoop_spec hc s hs (8 * (pack T ++ rest).length + 1) (BitDecoder.reset (pack T ++ rest)) (pack T ++ rest) 0
    (padZeros T.length ++ bitsOf rest) [] (by rw [List.length_append]; omega) hh
    ⟨rfl, by simp [BitDecoder.reset], by simp [BitDecoder.reset], by simp [BitDecoder.reset], by simp [BitDecoder.reset]⟩
    (by rw [List.drop_zero, bitsOf_append, bits_pack, List.append_assoc])
  have hp := hd.pos
  have h1 := hd.bit1
  have h8 := hd.bit8
  simp only [HCodec.decode, e, bind, Except.bind, List.nil_append, Except.ok.injEq, Prod.mk.injEq, true_and]
  rw [hpl]
  rw [← hT] at hp
  omega

end Verif.HeaderDiff
