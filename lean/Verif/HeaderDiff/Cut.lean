import Verif.HeaderDiff.SessionLemmas
/-
What the decoder of headerdiff makes of a frame that has been cut off.
-/
namespace Verif.HeaderDiff
open Verif

/-- A reader stands still at the end of what it reads: cut off before it fails, cut off later it succeeds. -/
def CutAt {α : Type} (f : List Nat → Py (α × List Nat)) (s : List Nat) (v : α) (rest : List Nat) : Prop :=
  ∃ c, s = c ++ rest ∧ (∀ j, j < c.length → f (s.take j) = .error .index) ∧
    ∀ j, c.length ≤ j → f (s.take j) = .ok (v, rest.take (j - c.length))

/-- The same for a string, of which the last `k` bytes may be missing. -/
def CutStr (f : List Nat → Py (Str × List Nat)) (s : List Nat) (v : Str) (rest : List Nat) (k : Nat) : Prop :=
  ∃ c, s = c ++ rest ∧ k ≤ c.length ∧ k ≤ v.length ∧ c.drop (c.length - k) = v.drop (v.length - k) ∧
    (∀ j, j + k < c.length → f (s.take j) = .error .index) ∧
    (∀ j, c.length ≤ j + k → j ≤ c.length → f (s.take j) = .ok (v.take (v.length - (c.length - j)), [])) ∧
    ∀ j, c.length ≤ j → f (s.take j) = .ok (v, rest.take (j - c.length))

theorem CutAt.str {f : List Nat → Py (Str × List Nat)} {s v rest : List Nat} (h : CutAt f s v rest) : CutStr f s v rest 0 := by
  obtain ⟨c, h1, h2, h3⟩ := h
  refine ⟨c, h1, Nat.zero_le _, Nat.zero_le _, by simp, by simpa using h2, fun j hj hj' => ?_, h3⟩
  have : j = c.length := by omega
  subst this
  rw [h3 _ (Nat.le_refl _)]
  simp

theorem readByte_cut {s rest : List Nat} {b : Nat} (h : readByte s = .ok (b, rest)) : CutAt readByte s b rest := by
  cases s with
  | nil => cases h
  | cons x s =>
    cases h
    refine ⟨[b], rfl, fun j hj => ?_, fun j hj => ?_⟩
    · have : j = 0 := by simpa using hj
      subst this; rfl
    · obtain ⟨j, rfl⟩ : ∃ i, j = i + 1 := ⟨j - 1, by simp at hj; omega⟩
      simp [readByte]

theorem readLoop_cut (s : List Nat) : ∀ {value f x : Nat} {rest : List Nat}, readLoop s value f = .ok (x, rest) →
    CutAt (fun s => readLoop s value f) s x rest := by
  induction s with
  | nil => intro value f x rest h; cases h
  | cons b s ih =>
    intro value f x rest h
    unfold readLoop at h
    by_cases hb : b &&& 0x80 > 0
    · rw [if_pos hb] at h
      obtain ⟨c, h1, h2, h3⟩ := ih h
      refine ⟨b :: c, by rw [h1]; rfl, fun j hj => ?_, fun j hj => ?_⟩
      · cases j with
        | zero => rfl
        | succ j =>
          rw [List.take_succ_cons]
          show readLoop (b :: s.take j) value f = _
          unfold readLoop
          rw [if_pos hb]
          exact h2 j (by simpa using hj)
      · cases j with
        | zero => simp at hj
        | succ j =>
          rw [List.take_succ_cons]
          show readLoop (b :: s.take j) value f = _
          unfold readLoop
          rw [if_pos hb]
          refine (h3 j (by simpa using hj)).trans ?_
          simp
    · rw [if_neg hb] at h
      cases h
      refine ⟨[b], rfl, fun j hj => ?_, fun j hj => ?_⟩
      · have : j = 0 := by simpa using hj
        subst this; rfl
      · obtain ⟨j, rfl⟩ : ∃ i, j = i + 1 := ⟨j - 1, by simp at hj; omega⟩
        rw [List.take_succ_cons]
        show readLoop (b :: s.take j) value f = _
        unfold readLoop
        rw [if_neg hb]
        simp

/-- One reader after another. -/
theorem CutAt.andThen {α β : Type} {f : List Nat → Py (α × List Nat)} {g : α → List Nat → Py (β × List Nat)} {s rest rest' : List Nat}
    {v : α} {w : β} (h : CutAt f s v rest) (hg : CutAt (g v) rest w rest') :
    CutAt (fun s => do let (v, r) ← f s; g v r) s w rest' := by
  obtain ⟨c, h1, h2, h3⟩ := h
  obtain ⟨c', h1', h2', h3'⟩ := hg
  refine ⟨c ++ c', by rw [h1, h1', List.append_assoc], fun j hj => ?_, fun j hj => ?_⟩
  · rw [List.length_append] at hj
    by_cases hjc : j < c.length
    · simp only [h2 j hjc, bind, Except.bind]
    · simp only [h3 j (by omega), bind, Except.bind]
      exact h2' _ (by omega)
  · rw [List.length_append] at hj
    simp only [h3 j (by omega), bind, Except.bind]
    rw [h3' _ (by omega), List.length_append, Nat.sub_sub]

theorem CutAt.done {α : Type} (v : α) (s : List Nat) : CutAt (fun s => .ok (v, s)) s v s :=
  ⟨[], rfl, fun j hj => absurd hj (Nat.not_lt_zero _), fun j _ => rfl⟩

theorem CutAt.map {α β : Type} {f : List Nat → Py (α × List Nat)} {s rest : List Nat} {v : α} (h : CutAt f s v rest) (g : α → β) :
    CutAt (fun s => do let (v, r) ← f s; .ok (g v, r)) s (g v) rest :=
  h.andThen (g := fun v r => .ok (g v, r)) (CutAt.done _ _)

theorem readPrefix_cut {b p : Nat} {s rest : List Nat} {v : Nat} (h : readPrefix b p s = .ok (v, rest)) :
    CutAt (readPrefix b p) s v rest := by
  unfold readPrefix at h
  by_cases hp : p ≤ 8
  · rw [if_pos hp] at h
    have e : readPrefix b p = (fun s => do let m ← maxValue p; .ok (b &&& m, s)) := by
      funext s; unfold readPrefix; rw [if_pos hp]
    rw [e]
    cases hm : maxValue p with
    | error x => simp [hm, bind, Except.bind] at h
    | ok m =>
      simp only [hm, bind, Except.bind] at h ⊢
      cases h
      exact CutAt.done _ _
  · rw [if_neg hp] at h
    cases hm : maxValue (p - 8) with
    | error x => simp [hm, bind, Except.bind] at h
    | ok m =>
      simp only [hm, bind, Except.bind] at h
      cases hb : readByte s with
      | error x => simp [hb] at h
      | ok q =>
        obtain ⟨x, r⟩ := q
        simp only [hb] at h
        have e : readPrefix b p = (fun s => do
            let (x, r) ← readByte s
            match maxValue 8 with
            | .error e => .error e
            | .ok m8 => .ok (((b &&& m) <<< 8) ||| (x &&& m8), r)) := by
          funext s; unfold readPrefix; rw [if_neg hp]; simp only [hm, bind, Except.bind]; rfl
        rw [e]
        have h8 : maxValue 8 = .ok 0xff := rfl
        rw [h8] at h ⊢
        cases h
        exact (readByte_cut hb).andThen (g := fun x r => .ok (((b &&& m) <<< 8) ||| (x &&& 0xff), r)) (CutAt.done _ _)

theorem readInteger_cut {b p : Nat} {s rest : List Nat} {v : Nat} (h : readInteger b p s = .ok (v, rest)) :
    CutAt (readInteger b p) s v rest := by
  unfold readInteger at h
  cases hr : readPrefix b p s with
  | error x => simp [hr, bind, Except.bind] at h
  | ok q =>
    obtain ⟨x, r⟩ := q
    simp only [hr, bind, Except.bind] at h
    cases hm : maxValue p with
    | error x => simp [hm] at h
    | ok m =>
      simp only [hm] at h
      have e : readInteger b p = (fun s => do
          let (x, r) ← readPrefix b p s
          if x = m then readLoop r m 1 else .ok (x, r)) := by
        funext s; unfold readInteger; simp only [hm, bind, Except.bind]
      rw [e]
      by_cases hx : x = m
      · rw [if_pos hx] at h
        refine (readPrefix_cut hr).andThen (g := fun x r => if x = m then readLoop r m 1 else .ok (x, r)) ?_
        simp only [if_pos hx]
        exact readLoop_cut r h
      · rw [if_neg hx] at h
        cases h
        refine (readPrefix_cut hr).andThen (g := fun x r => if x = m then readLoop r m 1 else .ok (x, r)) ?_
        simp only [if_neg hx]
        exact CutAt.done _ _

/-! ### Huffman -/

/-- A decoder of bits whose code is cut off. -/
def BitDecoder.cut (d : BitDecoder) (j : Nat) : BitDecoder := { d with code := d.code.take j }

theorem nextBit_cut {d d' : BitDecoder} {x : Nat} (h : d.nextBit = .ok (x, d')) (h8 : d.bit ≤ 8) :
    d'.code = d.code ∧ d.index ≤ d'.index ∧ d'.bit ≤ 8 ∧ 8 * d'.index + d'.bit = 8 * d.index + d.bit + 1 ∧
      ∀ j, (d'.index ≤ j → (d.cut j).nextBit = .ok (x, d'.cut j)) ∧
        (d.index ≤ j → j < d'.index → (d.cut j).nextBit = .error .index) := by
  unfold BitDecoder.nextBit at h
  by_cases hb : d.bit ≥ 8
  · rw [if_pos hb] at h
    cases hc : d.code[d.index]? with
    | none => simp [hc, bind, Except.bind] at h
    | some c =>
      simp only [hc, bind, Except.bind, masks, List.getElem?_cons_zero] at h
      cases h
      refine ⟨rfl, by simp, by simp, by simp; omega, fun j => ⟨fun hj => ?_, fun hj hj' => ?_⟩⟩
      · simp only at hj
        unfold BitDecoder.nextBit BitDecoder.cut
        simp only [if_pos hb, List.getElem?_take, if_pos (show d.index < j by omega), hc, bind, Except.bind, masks,
          List.getElem?_cons_zero]
      · simp only at hj'
        unfold BitDecoder.nextBit BitDecoder.cut
        simp only [if_pos hb, List.getElem?_take, if_neg (show ¬ d.index < j by omega), bind, Except.bind]
  · rw [if_neg hb] at h
    simp only [bind, Except.bind] at h
    cases hm : masks[d.bit]? with
    | none => simp [hm] at h
    | some m =>
      simp only [hm] at h
      cases h
      refine ⟨rfl, Nat.le_refl _, by simp; omega, by simp; omega, fun j => ⟨fun _ => ?_, fun hj hj' => absurd hj' (by simp; omega)⟩⟩
      unfold BitDecoder.nextBit BitDecoder.cut
      simp only [if_neg hb, bind, Except.bind, hm]

theorem descend_cut (t : Node) : ∀ {d d' : BitDecoder} {s : Nat}, t.descend d = .ok (s, d') → d.bit ≤ 8 →
    d'.code = d.code ∧ d.index ≤ d'.index ∧ d'.bit ≤ 8 ∧ 8 * d.index + d.bit ≤ 8 * d'.index + d'.bit ∧
      ((∃ p a b, t = Node.inner p a b) → 8 * d.index + d.bit < 8 * d'.index + d'.bit) ∧
      ∀ j, (d'.index ≤ j → t.descend (d.cut j) = .ok (s, d'.cut j)) ∧
        (d.index ≤ j → j < d'.index → t.descend (d.cut j) = .error .index) := by
  induction t with
  | leaf p s0 =>
    intro d d' s h h8
    cases h
    refine ⟨rfl, Nat.le_refl _, h8, Nat.le_refl _, ?_, fun j => ⟨fun _ => rfl, fun hj hj' => absurd hj' (by omega)⟩⟩
    rintro ⟨_, _, _, e⟩
    cases e
  | inner p a b iha ihb =>
    intro d d' s h h8
    unfold Node.descend at h
    cases hn : d.nextBit with
    | error e => simp [hn, bind, Except.bind] at h
    | ok q =>
      obtain ⟨x, d1⟩ := q
      simp only [hn, bind, Except.bind] at h
      obtain ⟨e1, e2, e3, e4, e5⟩ := nextBit_cut hn h8
      have key : ∀ t' : Node, t' = (if x ≠ 0 then b else a) → t'.descend d1 = .ok (s, d') →
          (d'.code = d1.code ∧ d1.index ≤ d'.index ∧ d'.bit ≤ 8 ∧ 8 * d1.index + d1.bit ≤ 8 * d'.index + d'.bit ∧
      ((∃ p a b, t' = Node.inner p a b) → 8 * d1.index + d1.bit < 8 * d'.index + d'.bit) ∧
      ∀ j, (d'.index ≤ j → t'.descend (d1.cut j) = .ok (s, d'.cut j)) ∧
        (d1.index ≤ j → j < d'.index → t'.descend (d1.cut j) = .error .index)) := by
        intro t' ht' hd
        by_cases hx : x ≠ 0
        · rw [if_pos hx] at ht'; subst ht'; exact ihb hd e3
        · rw [if_neg hx] at ht'; subst ht'; exact iha hd e3
      have hd : (if x ≠ 0 then b else a).descend d1 = .ok (s, d') := by
        by_cases hx : x ≠ 0
        · rw [if_pos hx] at h ⊢; exact h
        · rw [if_neg hx] at h ⊢; exact h
      obtain ⟨k1, k2, k3, k4, _, k6⟩ := key _ rfl hd
      have un : ∀ j r, (d.cut j).nextBit = .ok (x, r) → (Node.inner p a b).descend (d.cut j) = (if x ≠ 0 then b else a).descend r := by
        intro j r hr
        conv_lhs => unfold Node.descend
        simp only [hr, bind, Except.bind]
        split <;> rfl
      refine ⟨k1.trans e1, by omega, k3, by omega, fun _ => by omega, fun j => ⟨fun hj => ?_, fun hj hj' => ?_⟩⟩
      · rw [un j _ ((e5 j).1 (by omega))]
        exact (k6 j).1 hj
      · by_cases hj1 : j < d1.index
        · unfold Node.descend
          simp only [(e5 j).2 hj hj1, bind, Except.bind]
        · rw [un j _ ((e5 j).1 (by omega))]
          exact (k6 j).2 (by omega) hj'

theorem hloop_cut {h : HCodec} (hroot : ∃ p a b, h.root = Node.inner p a b) (fuel : Nat) :
    ∀ {d d' : BitDecoder} {res out : Str}, h.decodeLoop fuel d res = .ok (out, d') → d.bit ≤ 8 →
    d'.code = d.code ∧ d.index ≤ d'.index ∧
      ∀ j fuel', d.index ≤ j → 8 * j + 9 ≤ fuel' + (8 * d.index + d.bit) →
        (d'.index ≤ j → h.decodeLoop fuel' (d.cut j) res = .ok (out, d'.cut j)) ∧
        (j < d'.index → h.decodeLoop fuel' (d.cut j) res = .error .index) := by
  induction fuel with
  | zero => intro d d' res out h; cases h
  | succ fuel ih =>
    intro d d' res out hd h8
    unfold HCodec.decodeLoop at hd
    cases hn : h.root.descend d with
    | error e => simp [hn, bind, Except.bind] at hd
    | ok q =>
      obtain ⟨last, d1⟩ := q
      simp only [hn, bind, Except.bind] at hd
      obtain ⟨e1, e2, e3, _, e4, e5⟩ := descend_cut h.root hn h8
      have e4 := e4 hroot
      by_cases hl : last = 256
      · rw [if_pos hl] at hd
        simp only [Except.ok.injEq, Prod.mk.injEq] at hd
        obtain ⟨rfl, rfl⟩ := hd
        refine ⟨e1, e2, fun j fuel' hj hf => ?_⟩
        obtain ⟨fuel', rfl⟩ : ∃ g, fuel' = g + 1 := ⟨fuel' - 1, by omega⟩
        refine ⟨fun hj' => ?_, fun hj' => ?_⟩
        · unfold HCodec.decodeLoop
          simp only [(e5 j).1 hj', bind, Except.bind, if_pos hl]
        · unfold HCodec.decodeLoop
          simp only [(e5 j).2 hj hj', bind, Except.bind]
      · rw [if_neg hl] at hd
        obtain ⟨k1, k2, k3⟩ := ih hd e3
        refine ⟨k1.trans e1, by omega, fun j fuel' hj hf => ?_⟩
        obtain ⟨fuel', rfl⟩ : ∃ g, fuel' = g + 1 := ⟨fuel' - 1, by omega⟩
        by_cases hj1 : j < d1.index
        · refine ⟨fun hj' => by omega, fun _ => ?_⟩
          unfold HCodec.decodeLoop
          simp only [(e5 j).2 hj hj1, bind, Except.bind]
        · have := k3 j fuel' (by omega) (by omega)
          have e : h.decodeLoop (fuel' + 1) (d.cut j) res = h.decodeLoop fuel' (d1.cut j) (if last < 256 then res ++ [last] else res) := by
            conv_lhs => unfold HCodec.decodeLoop
            simp only [(e5 j).1 (by omega), bind, Except.bind, if_neg hl]
          rw [e]
          exact this

theorem nextBit_index : ∀ {d d' : BitDecoder} {x : Nat}, d.nextBit = .ok (x, d') → d.index ≤ d.code.length →
    d'.code = d.code ∧ d'.index ≤ d.code.length := by
  intro d d' x h hl
  unfold BitDecoder.nextBit at h
  by_cases hb : d.bit ≥ 8
  · rw [if_pos hb] at h
    cases hc : d.code[d.index]? with
    | none => simp [hc, bind, Except.bind] at h
    | some c =>
      simp only [hc, bind, Except.bind, masks, List.getElem?_cons_zero] at h
      cases h
      have := (List.getElem?_eq_some_iff.1 hc).1
      exact ⟨rfl, this⟩
  · rw [if_neg hb] at h
    simp only [bind, Except.bind] at h
    cases hm : masks[d.bit]? with
    | none => simp [hm] at h
    | some m =>
      simp only [hm] at h
      cases h
      exact ⟨rfl, hl⟩

theorem descend_index : ∀ (t : Node) {d d' : BitDecoder} {s : Nat}, t.descend d = .ok (s, d') → d.index ≤ d.code.length →
    d'.code = d.code ∧ d'.index ≤ d.code.length := by
  intro t
  induction t with
  | leaf p s0 => intro d d' s h hl; cases h; exact ⟨rfl, hl⟩
  | inner p a b iha ihb =>
    intro d d' s h hl
    unfold Node.descend at h
    cases hn : d.nextBit with
    | error e => simp [hn, bind, Except.bind] at h
    | ok q =>
      obtain ⟨x, d1⟩ := q
      simp only [hn, bind, Except.bind] at h
      obtain ⟨e1, e2⟩ := nextBit_index hn hl
      rw [← e1] at e2
      split at h
      · obtain ⟨k1, k2⟩ := ihb h e2
        exact ⟨k1.trans e1, e1 ▸ k2⟩
      · obtain ⟨k1, k2⟩ := iha h e2
        exact ⟨k1.trans e1, e1 ▸ k2⟩

theorem hdecode_index {h : HCodec} (fuel : Nat) : ∀ {d d' : BitDecoder} {res out : Str}, h.decodeLoop fuel d res = .ok (out, d') →
    d.index ≤ d.code.length → d'.index ≤ d.code.length := by
  induction fuel with
  | zero => intro d d' res out h; cases h
  | succ fuel ih =>
    intro d d' res out hd hl
    unfold HCodec.decodeLoop at hd
    cases hn : h.root.descend d with
    | error e => simp [hn, bind, Except.bind] at hd
    | ok q =>
      obtain ⟨last, d1⟩ := q
      simp only [hn, bind, Except.bind] at hd
      obtain ⟨e1, e2⟩ := descend_index _ hn hl
      by_cases h6 : last = 256
      · rw [if_pos h6] at hd
        simp only [Except.ok.injEq, Prod.mk.injEq] at hd
        obtain ⟨_, rfl⟩ := hd
        exact e2
      · rw [if_neg h6] at hd
        have := ih hd (by rw [e1]; exact e2)
        rwa [e1] at this

/-! ### Strings -/

theorem readString_cut {cfg : Cfg} (hco : CoderOk cfg) {s rest : List Nat} {v : Str} (h : readString cfg s = .ok (v, rest))
    (hr : rest ≠ []) : ∃ k, (cfg.huffman ≠ none → k = 0) ∧ (cfg.huffman = none → k = v.length) ∧ CutStr (readString cfg) s v rest k := by
  unfold readString at h
  cases hh : cfg.huffman with
  | none =>
    simp only [hh] at h
    refine ⟨v.length, fun hc => absurd rfl hc, fun _ => rfl, ?_⟩
    have un : readString cfg = (fun s => do
        let (length, s) ← readInteger 0 0 s
        .ok (s.take length, s.drop length)) := by
      funext s; unfold readString; simp only [hh]
    rw [un]
    cases hi : readInteger 0 0 s with
    | error e => simp [hi, bind, Except.bind] at h
    | ok q =>
      obtain ⟨n, r⟩ := q
      simp only [hi, bind, Except.bind, Except.ok.injEq, Prod.mk.injEq] at h ⊢
      obtain ⟨rfl, rfl⟩ := h
      have hn : n < r.length := by
        by_contra hc
        exact hr (List.drop_eq_nil_iff.2 (by omega))
      obtain ⟨c, h1, h2, h3⟩ := readInteger_cut hi
      have hlen : (r.take n).length = n := by rw [List.length_take]; omega
      refine ⟨c ++ r.take n, ?_, ?_, ?_, ?_, fun j hj => ?_, fun j hj hj' => ?_, fun j hj => ?_⟩
      · rw [List.append_assoc, List.take_append_drop]; exact h1
      · simp
      · exact Nat.le_refl _
      · rw [List.length_append, Nat.add_sub_cancel, Nat.sub_self, List.drop_left]; rfl
      · rw [List.length_append] at hj
        simp only [h2 j (by omega)]
      · rw [List.length_append, hlen] at hj hj' ⊢
        simp only [h3 j (by omega)]
        congr 2
        · rw [List.take_take, List.take_take]
          congr 1
          omega
        · rw [List.drop_eq_nil_iff, List.length_take]; omega
      · rw [List.length_append, hlen] at hj ⊢
        simp only [h3 j (by omega)]
        congr 2
        · rw [List.take_take]; congr 1; omega
        · rw [List.drop_take]; congr 1; omega
  | some c =>
    simp only [hh] at h
    refine ⟨0, fun _ => rfl, fun hc => by simp at hc, ?_⟩
    apply CutAt.str
    obtain ⟨syms, hcodes⟩ := hco c hh
    have un : readString cfg = (fun s => do
        let (value, length) ← c.decode s
        .ok (value, s.drop length)) := by
      funext s; unfold readString; simp only [hh]
    rw [un]
    cases hi : c.decode s with
    | error e => simp [hi, bind, Except.bind] at h
    | ok q =>
      obtain ⟨v', n⟩ := q
      simp only [hi, bind, Except.bind, Except.ok.injEq, Prod.mk.injEq] at h
      obtain ⟨rfl, rfl⟩ := h
      unfold HCodec.decode at hi
      cases hl : c.decodeLoop (8 * s.length + 1) (BitDecoder.reset s) [] with
      | error e => simp [hl, bind, Except.bind] at hi
      | ok q =>
        obtain ⟨out, d'⟩ := q
        simp only [hl, bind, Except.bind, Except.ok.injEq, Prod.mk.injEq] at hi
        obtain ⟨rfl, rfl⟩ := hi
        obtain ⟨_, _, k3⟩ := hloop_cut hcodes.root _ hl (by simp [BitDecoder.reset])
        have hidx := hdecode_index _ hl (by simp [BitDecoder.reset])
        simp only [BitDecoder.reset] at hidx
        have hcl : (s.take d'.index).length = d'.index := by rw [List.length_take]; omega
        have hsl : d'.index < s.length := by
          by_contra hc
          exact hr (List.drop_eq_nil_iff.2 (by omega))
        have un2 : ∀ j, c.decode (s.take j) = (do
            let (res, d) ← c.decodeLoop (8 * (s.take j).length + 1) ((BitDecoder.reset s).cut j) []
            .ok (res, d.index)) := fun j => rfl
        refine ⟨s.take d'.index, (List.take_append_drop _ _).symm, fun j hj => ?_, fun j hj => ?_⟩
        · rw [hcl] at hj
          have := (k3 j (8 * (s.take j).length + 1) (by simp [BitDecoder.reset]) (by
            rw [List.length_take]; simp [BitDecoder.reset]; omega)).2 hj
          simp only [un2, this, bind, Except.bind]
        · rw [hcl] at hj ⊢
          have hdl : ∀ j, d'.index ≤ j → j ≤ s.length → c.decode (s.take j) = .ok (out, d'.index) := by
            intro j hj hjs
            have := (k3 j (8 * (s.take j).length + 1) (by simp [BitDecoder.reset]) (by
              rw [List.length_take]; simp [BitDecoder.reset]; omega)).1 hj
            simp only [un2, this, bind, Except.bind]
            rfl
          by_cases hjs : j ≤ s.length
          · simp only [hdl j hj hjs, bind, Except.bind]
            rw [List.drop_take]
          · have e1 : s.take j = s := List.take_of_length_le (by omega)
            have := hdl s.length (by omega) (Nat.le_refl _)
            rw [List.take_of_length_le (Nat.le_refl _)] at this
            rw [e1]
            simp only [this, bind, Except.bind]
            rw [List.take_of_length_le]
            rw [List.length_drop]; omega

theorem readInteger_zero_nil (b : Nat) : readInteger b 0 [] = .error .index := by
  have h : maxValue 0 = .ok 0 := rfl
  simp [readInteger, readPrefix, h, bind, Except.bind, readLoop]

theorem readString_nil {cfg : Cfg} (hco : CoderOk cfg) : readString cfg [] = .error .index := by
  unfold readString
  cases hh : cfg.huffman with
  | none => simp only [readInteger_zero_nil, bind, Except.bind]
  | some h =>
    obtain ⟨syms, hc⟩ := hco h hh
    obtain ⟨p, a, b, hr⟩ := hc.root
    have hn : (BitDecoder.reset []).nextBit = .error .index := rfl
    simp only [HCodec.decode, List.length_nil, Nat.mul_zero, Nat.zero_add, HCodec.decodeLoop, hr, Node.descend, hn, bind, Except.bind]

/-! ### One header -/

/-- One header: the last `k` bytes belong to the value; cut off there the value is shorter, before an error. -/
def CutH (f : List Nat → Py (Dec × Hdr × List Nat)) (s : List Nat) (d : Dec) (h : Hdr) (rest : List Nat) (k : Nat) : Prop :=
  ∃ c, s = c ++ rest ∧ k ≤ c.length ∧ k ≤ h.2.length ∧ c.drop (c.length - k) = h.2.drop (h.2.length - k) ∧
    (∀ j, j + k < c.length → f (s.take j) = .error .index) ∧
    (∀ j, c.length ≤ j + k → j ≤ c.length →
      ∃ d', f (s.take j) = .ok (d', (h.1, h.2.take (h.2.length - (c.length - j))), []) ∧ d'.size ≤ d.size) ∧
    ∀ j, c.length ≤ j → f (s.take j) = .ok (d, h, rest.take (j - c.length))

theorem drop_end {c c' : List Nat} {k : Nat} (h : k ≤ c'.length) : (c ++ c').drop ((c ++ c').length - k) = c'.drop (c'.length - k) := by
  rw [List.length_append, List.drop_append, List.drop_eq_nil_of_le (by omega), List.nil_append]
  congr 1
  omega

/-- Something is read before. -/
theorem CutAt.thenH {α : Type} {f : List Nat → Py (α × List Nat)} {g : α → List Nat → Py (Dec × Hdr × List Nat)} {s mid rest : List Nat}
    {v : α} {d : Dec} {h : Hdr} {k : Nat} (hf : CutAt f s v mid) (hg : CutH (g v) mid d h rest k) :
    CutH (fun s => do let (v, r) ← f s; g v r) s d h rest k := by
  obtain ⟨c, h1, h2, h3⟩ := hf
  obtain ⟨c', e1, e2, e3, e4, e5, e6, e7⟩ := hg
  refine ⟨c ++ c', by rw [h1, e1, List.append_assoc], by rw [List.length_append]; omega, e3, ?_, fun j hj => ?_, fun j hj hj' => ?_,
    fun j hj => ?_⟩
  · rw [← e4, drop_end e2]
  · rw [List.length_append] at hj
    by_cases hjc : j < c.length
    · simp only [h2 j hjc, bind, Except.bind]
    · simp only [h3 j (by omega), bind, Except.bind]
      exact e5 _ (by omega)
  · rw [List.length_append] at hj hj' ⊢
    simp only [h3 j (by omega), bind, Except.bind]
    obtain ⟨d', k1, k2⟩ := e6 (j - c.length) (by omega) (by omega)
    refine ⟨d', ?_, k2⟩
    rw [k1]
    congr 5
    omega
  · rw [List.length_append] at hj ⊢
    simp only [h3 j (by omega), bind, Except.bind]
    rw [e7 _ (by omega), Nat.sub_sub]

/-- A string is read before: without it the rest cannot be read. -/
theorem CutStr.thenH {f : List Nat → Py (Str × List Nat)} {g : Str → List Nat → Py (Dec × Hdr × List Nat)} {s mid rest : List Nat}
    {v : Str} {d : Dec} {h : Hdr} {k k' : Nat} (hf : CutStr f s v mid k') (hg : CutH (g v) mid d h rest k)
    (h0 : ∀ v, g v [] = .error .index) :
    CutH (fun s => do let (v, r) ← f s; g v r) s d h rest k := by
  obtain ⟨c, h1, _, _, _, h2, h3, h4⟩ := hf
  obtain ⟨c', e1, e2, e3, e4, e5, e6, e7⟩ := hg
  have hk : k < c'.length := by
    by_contra hc
    obtain ⟨d', k1, _⟩ := e6 0 (by omega) (by omega)
    rw [List.take_zero, h0] at k1
    cases k1
  refine ⟨c ++ c', by rw [h1, e1, List.append_assoc], by rw [List.length_append]; omega, e3, by rw [← e4, drop_end e2],
    fun j hj => ?_, fun j hj hj' => ?_, fun j hj => ?_⟩
  · rw [List.length_append] at hj
    by_cases hjc : j + k' < c.length
    · simp only [h2 j hjc, bind, Except.bind]
    · by_cases hjc' : j ≤ c.length
      · simp only [h3 j (by omega) hjc', bind, Except.bind]
        exact h0 _
      · simp only [h4 j (by omega), bind, Except.bind]
        exact e5 _ (by omega)
  · rw [List.length_append] at hj hj' ⊢
    simp only [h4 j (by omega), bind, Except.bind]
    obtain ⟨d', k1, k2⟩ := e6 (j - c.length) (by omega) (by omega)
    refine ⟨d', ?_, k2⟩
    rw [k1]
    congr 5
    omega
  · rw [List.length_append] at hj ⊢
    simp only [h4 j (by omega), bind, Except.bind]
    rw [e7 _ (by omega), Nat.sub_sub]

/-- The value is read last. -/
theorem CutStr.last {f : List Nat → Py (Str × List Nat)} {g : Str → Py Dec} {s rest : List Nat} {v pre name : Str} {d : Dec} {k : Nat}
    (hf : CutStr f s v rest k) (hg : g v = .ok d) (hm : ∀ i, ∃ d', g (v.take i) = .ok d' ∧ d'.size ≤ d.size) :
    CutH (fun s => do let (v, r) ← f s; let d ← g v; .ok (d, (name, pre ++ v), r)) s d (name, pre ++ v) rest k := by
  obtain ⟨c, h1, h2, h3, h4, h5, h6, h7⟩ := hf
  refine ⟨c, h1, h2, by simp only [List.length_append]; omega, by rw [h4]; exact (drop_end h3).symm, fun j hj => ?_, fun j hj hj' => ?_,
    fun j hj => ?_⟩
  · simp only [h5 j hj, bind, Except.bind]
  · obtain ⟨d', k1, k2⟩ := hm (v.length - (c.length - j))
    refine ⟨d', ?_, k2⟩
    simp only [h6 j hj hj', k1, bind, Except.bind]
    have e : (pre ++ v).take ((pre ++ v).length - (c.length - j)) = pre ++ v.take (v.length - (c.length - j)) := by
      have hl : (pre ++ v).length - (c.length - j) = pre.length + (v.length - (c.length - j)) := by
        rw [List.length_append]; omega
      rw [hl, List.take_length_add_append]
    rw [e]
  · simp only [h7 j hj, hg, bind, Except.bind]

/-- Nothing of the value can be missing. -/
theorem CutAt.only {f : List Nat → Py (Hdr × List Nat)} {s rest : List Nat} {h : Hdr} (d : Dec) (hf : CutAt f s h rest) :
    CutH (fun s => do let (h, r) ← f s; .ok (d, h, r)) s d h rest 0 := by
  obtain ⟨c, h1, h2, h3⟩ := hf
  refine ⟨c, h1, Nat.zero_le _, Nat.zero_le _, by simp, fun j hj => ?_, fun j hj hj' => ⟨d, ?_, Int.le_refl _⟩, fun j hj => ?_⟩
  · simp only [h2 j (by omega), bind, Except.bind]
  · have : j = c.length := by omega
    subst this
    simp only [h3 _ (Nat.le_refl _), bind, Except.bind]
    simp
  · simp only [h3 j hj, bind, Except.bind]

theorem decodeIndexing_cut {d d' : Dec} {sub inc : Bool} {ref : Nat} {n v : Str} (h : decodeIndexing d sub inc ref (n, v) = .ok d')
    (w : Str) (hw : w.length ≤ v.length) : ∃ d'', decodeIndexing d sub inc ref (n, w) = .ok d'' ∧ d''.size ≤ d'.size := by
  unfold decodeIndexing at h ⊢
  cases sub with
  | true =>
    simp only [if_true, bind, Except.bind] at h ⊢
    cases hi : item d.headers ref with
    | error e => simp [hi] at h
    | ok old =>
      simp only [hi, Except.ok.injEq] at h ⊢
      subst h
      exact ⟨_, rfl, by simp only; omega⟩
  | false =>
    simp only [Bool.false_eq_true, if_false] at h ⊢
    cases inc with
    | true =>
      simp only [if_true, Except.ok.injEq] at h ⊢
      subst h
      exact ⟨_, rfl, by simp only; omega⟩
    | false =>
      simp only [Bool.false_eq_true, if_false, Except.ok.injEq] at h ⊢
      subst h
      exact ⟨_, rfl, Int.le_refl _⟩

theorem decodeIndexed_cut {d : Dec} {b0 : Nat} {s rest : List Nat} {h : Hdr} (hd : decodeIndexed d b0 s = .ok (h, rest)) :
    CutAt (decodeIndexed d b0) s h rest := by
  unfold decodeIndexed at hd
  by_cases hb : b0 &&& 0x40 ≠ 0
  · rw [if_pos hb] at hd
    have e : decodeIndexed d b0 = (fun s => do
        let (i, s) ← readInteger b0 14 s
        match item d.headers (i + 64) with
        | .error e => .error e
        | .ok h => .ok (h, s)) := by
      funext s
      unfold decodeIndexed
      rw [if_pos hb]
      simp only [bind, Except.bind]
      cases readInteger b0 14 s with
      | error e => rfl
      | ok q =>
        simp only
        cases item d.headers (q.1 + 64) <;> rfl
    rw [e]
    cases hi : readInteger b0 14 s with
    | error x => simp [hi, bind, Except.bind] at hd
    | ok q =>
      obtain ⟨i, r⟩ := q
      simp only [hi, bind, Except.bind] at hd
      cases ht : item d.headers (i + 64) with
      | error x => simp [ht] at hd
      | ok h' =>
        simp only [ht] at hd
        cases hd
        refine (readInteger_cut hi).andThen (g := fun i s => match item d.headers (i + 64) with
          | .error e => .error e
          | .ok h => .ok (h, s)) ?_
        simp only [ht]
        exact CutAt.done _ _
  · rw [if_neg hb] at hd
    have e : decodeIndexed d b0 = (fun s => match item d.headers (b0 &&& 0x3f) with
        | .error e => .error e
        | .ok h => .ok (h, s)) := by
      funext s
      unfold decodeIndexed
      rw [if_neg hb]
      simp only [bind, Except.bind]
      cases item d.headers (b0 &&& 0x3f) <;> rfl
    rw [e]
    simp only [bind, Except.bind] at hd
    cases ht : item d.headers (b0 &&& 0x3f) with
    | error x => simp [ht] at hd
    | ok h' =>
      simp only [ht] at hd ⊢
      cases hd
      exact CutAt.done _ _

theorem CutAt.ne {α : Type} {f : List Nat → Py (α × List Nat)} {s rest : List Nat} {v : α} (h : CutAt f s v rest) (hr : rest ≠ []) :
    s ≠ [] := by
  obtain ⟨c, h1, _⟩ := h
  rw [h1]
  simp [hr]

theorem CutH.ne {f : List Nat → Py (Dec × Hdr × List Nat)} {s rest : List Nat} {d : Dec} {h : Hdr} {k : Nat} (hh : CutH f s d h rest k)
    (hr : rest ≠ []) : s ≠ [] := by
  obtain ⟨c, h1, _⟩ := hh
  rw [h1]
  simp [hr]

/-- What follows the name. -/
def valuePart (cfg : Cfg) (b0 : Nat) (sub inc : Bool) (d : Dec) (name : Str) (s : List Nat) : Py (Dec × Hdr × List Nat) := do
  let (ref, s) ← if sub then readInteger b0 0 s else .ok (0, s)
  let (value, s) ← readString cfg s
  let d ← decodeIndexing d sub inc ref (name, value)
  .ok (d, (name, value), s)

theorem valuePart_nil {cfg : Cfg} (hco : CoderOk cfg) (b0 : Nat) (sub inc : Bool) (d : Dec) (name : Str) :
    valuePart cfg b0 sub inc d name [] = .error .index := by
  unfold valuePart
  cases sub
  · simp [readString_nil hco, bind, Except.bind]
  · simp [readInteger_zero_nil, bind, Except.bind]

theorem valuePart_cut {cfg : Cfg} (hco : CoderOk cfg) {b0 : Nat} {sub inc : Bool} {d d' : Dec} {name : Str} {s rest : List Nat} {h : Hdr}
    (hd : valuePart cfg b0 sub inc d name s = .ok (d', h, rest)) (hr : rest ≠ []) :
    ∃ k, (cfg.huffman ≠ none → k = 0) ∧ CutH (valuePart cfg b0 sub inc d name) s d' h rest k := by
  have un : valuePart cfg b0 sub inc d name = (fun s => do
      let (ref, s) ← (fun s => if sub then readInteger b0 0 s else .ok (0, s)) s
      let (value, s) ← readString cfg s
      let d ← decodeIndexing d sub inc ref (name, value)
      .ok (d, (name, value), s)) := by
    funext s
    unfold valuePart
    cases sub <;> rfl
  rw [un] at hd ⊢
  have hpre : ∀ ref r, (fun s => if sub then readInteger b0 0 s else .ok (0, s)) s = .ok (ref, r) →
      CutAt (fun s => if sub then readInteger b0 0 s else .ok (0, s)) s ref r := by
    intro ref r hq
    cases sub with
    | true => simp only [if_true] at hq ⊢; exact readInteger_cut hq
    | false =>
      simp only [Bool.false_eq_true, if_false] at hq ⊢
      cases hq
      exact CutAt.done _ _
  generalize (fun s => if sub then readInteger b0 0 s else .ok (0, s) : List Nat → Py (Nat × List Nat)) = f at hd hpre ⊢
  cases hq : f s with
  | error e => simp only [hq, bind, Except.bind] at hd; cases hd
  | ok q =>
    obtain ⟨ref, r⟩ := q
    simp only [hq, bind, Except.bind] at hd
    cases hv : readString cfg r with
    | error e => simp [hv] at hd
    | ok q =>
      obtain ⟨v, r'⟩ := q
      simp only [hv] at hd
      cases hi : decodeIndexing d sub inc ref (name, v) with
      | error e => simp [hi] at hd
      | ok d1 =>
        simp only [hi] at hd
        cases hd
        obtain ⟨k, hk, _, hstr⟩ := readString_cut hco hv hr
        refine ⟨k, hk, ?_⟩
        have hlast := hstr.last (g := fun v => decodeIndexing d sub inc ref (name, v)) (pre := []) (name := name) hi
          (fun i => decodeIndexing_cut hi _ (by simp))
        exact (hpre _ _ hq).thenH (g := fun ref s => do
          let (value, s) ← readString cfg s
          let d ← decodeIndexing d sub inc ref (name, value)
          .ok (d, (name, value), s)) hlast

theorem decodeNew_cut {cfg : Cfg} (hco : CoderOk cfg) {b0 : Nat} {d d' : Dec} {s rest : List Nat} {h : Hdr}
    (hd : decodeNew cfg d b0 s = .ok (d', h, rest)) (hr : rest ≠ []) :
    ∃ k, (cfg.huffman ≠ none → k = 0) ∧ CutH (decodeNew cfg d b0) s d' h rest k := by
  unfold decodeNew at hd
  generalize hinc : (b0 &&& 0x30 == 0x20) = inc at hd
  generalize hsub : (b0 &&& 0x30 == 0x30) = sub at hd
  simp only at hd
  generalize hpb : (if inc || sub then 4 else 5) = pb at hd
  by_cases hb : b0 &&& 0x40 ≠ 0
  · rw [if_pos hb] at hd
    have un : decodeNew cfg d b0 = (fun s => do
        let (ref, s) ← readInteger b0 pb s
        match item d.headers ref with
        | .error e => .error e
        | .ok nameOf => do
          let (prefixLength, s) ← readInteger b0 0 s
          let (rest, s) ← readString cfg s
          let d ← decodeIndexing d sub inc ref (nameOf.1, nameOf.2.take prefixLength ++ rest)
          .ok (d, (nameOf.1, nameOf.2.take prefixLength ++ rest), s)) := by
      funext s
      unfold decodeNew
      simp only [hinc, hsub, hpb, if_pos hb, bind, Except.bind]
      cases readInteger b0 pb s with
      | error e => rfl
      | ok q =>
        obtain ⟨ref, r⟩ := q
        simp only
        cases item d.headers ref with
        | error e => rfl
        | ok o => rfl
    rw [un]
    cases h1 : readInteger b0 pb s with
    | error e => simp [h1, bind, Except.bind] at hd
    | ok q =>
    obtain ⟨ref, s1⟩ := q
    simp only [h1, bind, Except.bind] at hd
    cases h2 : item d.headers ref with
    | error e => simp [h2] at hd
    | ok old =>
    simp only [h2] at hd
    cases h3 : readInteger b0 0 s1 with
    | error e => simp [h3] at hd
    | ok q =>
    obtain ⟨pl, s2⟩ := q
    simp only [h3] at hd
    cases h4 : readString cfg s2 with
    | error e => simp [h4] at hd
    | ok q =>
    obtain ⟨v, s3⟩ := q
    simp only [h4] at hd
    cases h5 : decodeIndexing d sub inc ref (old.1, old.2.take pl ++ v) with
    | error e => simp [h5] at hd
    | ok d1 =>
    simp only [h5] at hd
    cases hd
    obtain ⟨k, hk, _, hstr⟩ := readString_cut hco h4 hr
    refine ⟨k, hk, ?_⟩
    have hlast := hstr.last (g := fun v => decodeIndexing d sub inc ref (old.1, old.2.take pl ++ v)) (pre := old.2.take pl) (name := old.1) h5
      (fun i => decodeIndexing_cut h5 _ (by simp))
    refine (readInteger_cut h1).thenH (g := fun ref s => match item d.headers ref with
        | .error e => .error e
        | .ok nameOf => do
          let (prefixLength, s) ← readInteger b0 0 s
          let (rest, s) ← readString cfg s
          let d ← decodeIndexing d sub inc ref (nameOf.1, nameOf.2.take prefixLength ++ rest)
          .ok (d, (nameOf.1, nameOf.2.take prefixLength ++ rest), s)) ?_
    simp only [h2]
    exact (readInteger_cut h3).thenH (g := fun pl s => do
          let (rest, s) ← readString cfg s
          let d ← decodeIndexing d sub inc ref (old.1, old.2.take pl ++ rest)
          .ok (d, (old.1, old.2.take pl ++ rest), s)) hlast
  · rw [if_neg hb] at hd
    have un : decodeNew cfg d b0 = (fun s => do
        let (ref, s) ← readInteger b0 pb s
        if ref = 0 then do
          let (name, s) ← readString cfg s
          valuePart cfg b0 sub inc { d with names := d.names ++ [name] } name s
        else match item d.names (ref - 1) with
          | .error e => .error e
          | .ok name => valuePart cfg b0 sub inc d name s) := by
      funext s
      unfold decodeNew decodeName valuePart
      simp only [hinc, hsub, hpb, if_neg hb, bind, Except.bind]
      cases readInteger b0 pb s with
      | error e => rfl
      | ok q =>
        obtain ⟨ref, r⟩ := q
        simp only
        by_cases h0 : ref = 0
        · simp only [if_pos h0]
          cases readString cfg r with
          | error e => rfl
          | ok o => rfl
        · simp only [if_neg h0]
          cases item d.names (ref - 1) with
          | error e => rfl
          | ok o => rfl
    have hd' : decodeNew cfg d b0 s = .ok (d', h, rest) := by
      unfold decodeNew
      simp only [hinc, hsub, hpb, if_neg hb]
      exact hd
    clear hd
    rw [un] at hd' ⊢
    cases h1 : readInteger b0 pb s with
    | error e => simp [h1, bind, Except.bind] at hd'
    | ok q =>
    obtain ⟨ref, s1⟩ := q
    simp only [h1, bind, Except.bind] at hd'
    by_cases h0 : ref = 0
    · simp only [if_pos h0] at hd'
      cases h2 : readString cfg s1 with
      | error e => simp [h2] at hd'
      | ok q =>
      obtain ⟨name, s2⟩ := q
      simp only [h2] at hd'
      obtain ⟨k, hk, hcut⟩ := valuePart_cut hco hd' hr
      obtain ⟨k', _, _, hstr⟩ := readString_cut hco h2 (hcut.ne hr)
      refine ⟨k, hk, (readInteger_cut h1).thenH (g := fun ref s => if ref = 0 then do
          let (name, s) ← readString cfg s
          valuePart cfg b0 sub inc { d with names := d.names ++ [name] } name s
        else match item d.names (ref - 1) with
          | .error e => .error e
          | .ok name => valuePart cfg b0 sub inc d name s) ?_⟩
      simp only [if_pos h0]
      exact hstr.thenH (g := fun name s => valuePart cfg b0 sub inc { d with names := d.names ++ [name] } name s) hcut
        (fun v => valuePart_nil hco _ _ _ _ _)
    · simp only [if_neg h0] at hd'
      cases h2 : item d.names (ref - 1) with
      | error e => simp [h2] at hd'
      | ok name =>
      simp only [h2] at hd'
      obtain ⟨k, hk, hcut⟩ := valuePart_cut hco hd' hr
      refine ⟨k, hk, (readInteger_cut h1).thenH (g := fun ref s => if ref = 0 then do
          let (name, s) ← readString cfg s
          valuePart cfg b0 sub inc { d with names := d.names ++ [name] } name s
        else match item d.names (ref - 1) with
          | .error e => .error e
          | .ok name => valuePart cfg b0 sub inc d name s) ?_⟩
      simp only [if_neg h0, h2]
      exact hcut

theorem decodeHeader_cut {cfg : Cfg} (hco : CoderOk cfg) {d d' : Dec} {s rest : List Nat} {h : Hdr}
    (hd : decodeHeader cfg d s = .ok (d', h, rest)) (hr : rest ≠ []) :
    ∃ k, (cfg.huffman ≠ none → k = 0) ∧ CutH (decodeHeader cfg d) s d' h rest k := by
  unfold decodeHeader at hd
  by_cases hs : d.size > cfg.maxSize
  · simp [hs] at hd
  · rw [if_neg hs] at hd
    have un : decodeHeader cfg d = (fun s => do
        let (b0, s) ← readByte s
        if b0 &&& 0x80 ≠ 0 then do
          let (h, s) ← decodeIndexed d b0 s
          .ok (d, h, s)
        else decodeNew cfg d b0 s) := by
      funext s
      unfold decodeHeader
      rw [if_neg hs]
    rw [un]
    cases h1 : readByte s with
    | error e => simp [h1, bind, Except.bind] at hd
    | ok q =>
    obtain ⟨b0, s1⟩ := q
    simp only [h1, bind, Except.bind] at hd
    by_cases hb : b0 &&& 0x80 ≠ 0
    · rw [if_pos hb] at hd
      cases h2 : decodeIndexed d b0 s1 with
      | error e => simp [h2] at hd
      | ok q =>
      obtain ⟨h', s2⟩ := q
      simp only [h2] at hd
      cases hd
      refine ⟨0, fun _ => rfl, (readByte_cut h1).thenH (g := fun b0 s => if b0 &&& 0x80 ≠ 0 then do
          let (h, s) ← decodeIndexed d b0 s
          .ok (d, h, s)
        else decodeNew cfg d b0 s) ?_⟩
      simp only [if_pos hb]
      exact (decodeIndexed_cut h2).only d
    · rw [if_neg hb] at hd
      obtain ⟨k, hk, hcut⟩ := decodeNew_cut hco hd hr
      refine ⟨k, hk, (readByte_cut h1).thenH (g := fun b0 s => if b0 &&& 0x80 ≠ 0 then do
          let (h, s) ← decodeIndexed d b0 s
          .ok (d, h, s)
        else decodeNew cfg d b0 s) ?_⟩
      simp only [if_neg hb]
      exact hcut

/-! ### Messages -/

/-- A written header that is cut off. -/
theorem encodeHeader_cut {cfg : Cfg} (hco : CoderOk cfg) {d d' : Dec} {out : List Nat} {h : Hdr}
    (hd : ∀ rest, decodeHeader cfg d (out ++ rest) = .ok (d', h, rest)) :
    ∃ k, (cfg.huffman ≠ none → k = 0) ∧ k ≤ out.length ∧ k ≤ h.2.length ∧ out.drop (out.length - k) = h.2.drop (h.2.length - k) ∧
      (∀ j, j + k < out.length → decodeHeader cfg d (out.take j) = .error .index) ∧
      ∀ j, out.length ≤ j + k → j ≤ out.length →
        ∃ d'', decodeHeader cfg d (out.take j) = .ok (d'', (h.1, h.2.take (h.2.length - (out.length - j))), []) ∧ d''.size ≤ d'.size := by
  obtain ⟨k, hk, c, e1, e2, e3, e4, e5, e6, _⟩ := decodeHeader_cut hco (hd [0]) (by simp)
  have hc : c = out := (List.append_cancel_right e1).symm
  subst hc
  have ht : ∀ j, j ≤ c.length → (c ++ [0]).take j = c.take j := fun j hj => List.take_append_of_le_length hj
  refine ⟨k, hk, e2, e3, e4, fun j hj => ?_, fun j hj hj' => ?_⟩
  · rw [← ht j (by omega)]; exact e5 j hj
  · rw [← ht j hj']; exact e6 j hj hj'

theorem decodeHeader_nil {cfg : Cfg} {d : Dec} (hd : d.size ≤ cfg.maxSize) : decodeHeader cfg d [] = .error .index := by
  unfold decodeHeader
  rw [if_neg (by omega)]
  rfl

theorem encodeLoop_cut {cfg : Cfg} (hco : CoderOk cfg) {order : Order} (ho : OrderOk order) (hs : List Hdr) (hne : hs ≠ []) :
    ∀ {st st' : Enc} {d : Dec} {out : List Nat}, Sync cfg st d → (∀ h ∈ hs, Bytes h) → encodeLoop order cfg st hs = (st', .ok out) →
    ∃ d' init last k, decodeLoop cfg hs.length d out = .ok (d', init ++ [last]) ∧ (cfg.huffman ≠ none → k = 0) ∧ k ≤ out.length ∧
      k ≤ last.2.length ∧ out.drop (out.length - k) = last.2.drop (last.2.length - k) ∧
      (∀ j, j + k < out.length → decodeLoop cfg hs.length d (out.take j) = .error .index) ∧
      ∀ j, out.length ≤ j + k → j ≤ out.length → ∃ d'', decodeLoop cfg hs.length d (out.take j) =
        .ok (d'', init ++ [(last.1, last.2.take (last.2.length - (out.length - j)))]) := by
  induction hs with
  | nil => exact absurd rfl hne
  | cons h hs ih =>
    intro st st' d out hsy hb he
    unfold encodeLoop at he
    cases h1 : encodeHeader order cfg st h with
    | mk st1 o1 =>
    rw [h1] at he
    cases o1 with
    | error e => simp at he
    | ok x =>
      simp only at he
      cases h2 : encodeLoop order cfg st1 hs with
      | mk st2 o2 =>
      rw [h2] at he
      cases o2 with
      | error e => simp at he
      | ok y =>
        simp only [Prod.mk.injEq, Except.ok.injEq] at he
        obtain ⟨rfl, rfl⟩ := he
        obtain ⟨hbn, hbv⟩ := hb h (by simp)
        obtain ⟨d1, h', hsy1, hd1, _, _, _⟩ := encodeHeader_spec hco ho hsy hbn hbv h1
        obtain ⟨k, hk, c2, c3, c4, c5, c6⟩ := encodeHeader_cut hco hd1
        by_cases hnil : hs = []
        · subst hnil
          simp only [encodeLoop, Prod.mk.injEq, Except.ok.injEq] at h2
          obtain ⟨rfl, rfl⟩ := h2
          rw [List.append_nil]
          refine ⟨d1, [], h', k, ?_, hk, c2, c3, c4, fun j hj => ?_, fun j hj hj' => ?_⟩
          · have := hd1 []
            rw [List.append_nil] at this
            simp only [List.length_cons, List.length_nil, decodeLoop, this, bind, Except.bind, List.nil_append]
          · simp only [List.length_cons, List.length_nil, decodeLoop, c5 j hj, bind, Except.bind]
          · obtain ⟨d'', e, _⟩ := c6 j hj hj'
            exact ⟨d'', by simp only [List.length_cons, List.length_nil, decodeLoop, e, bind, Except.bind, List.nil_append]⟩
        · obtain ⟨d2, init, last, k2, i1, i2, i3, i4, i5, i6, i7⟩ := ih hnil hsy1 (fun x hx => hb x (by simp [hx])) h2
          have hstep : ∀ j, x.length ≤ j → decodeLoop cfg (hs.length + 1) d ((x ++ y).take j) = (do
              let (d, hs) ← decodeLoop cfg hs.length d1 (y.take (j - x.length))
              .ok (d, h' :: hs)) := by
            intro j hj
            rw [List.take_append, List.take_of_length_le hj]
            simp only [decodeLoop, hd1, bind, Except.bind]
          refine ⟨d2, h' :: init, last, k2, ?_, i2, by rw [List.length_append]; omega, i4, by rw [drop_end i3, i5], fun j hj => ?_,
            fun j hj hj' => ?_⟩
          · simp only [List.length_cons, decodeLoop, hd1, bind, Except.bind, i1, List.cons_append]
          · rw [List.length_append] at hj
            rw [List.length_cons]
            by_cases hjx : x.length ≤ j
            · rw [hstep j hjx]
              simp only [i6 _ (show j - x.length + k2 < y.length by omega), bind, Except.bind]
            · rw [List.take_append_of_le_length (by omega)]
              by_cases hjk : j + k < x.length
              · simp only [decodeLoop, c5 j hjk, bind, Except.bind]
              · obtain ⟨d'', e, hsz⟩ := c6 j (by omega) (by omega)
                obtain ⟨n, hn⟩ : ∃ n, hs.length = n + 1 := ⟨hs.length - 1, by
                  have := List.length_pos_iff.2 hnil
                  omega⟩
                have := hsy1.table.bound
                simp only [decodeLoop, e, hn, decodeHeader_nil (show d''.size ≤ cfg.maxSize by omega), bind, Except.bind]
          · rw [List.length_append] at hj hj' ⊢
            rw [List.length_cons, hstep j (by omega)]
            obtain ⟨d'', e⟩ := i7 (j - x.length) (by omega) (by omega)
            refine ⟨d'', ?_⟩
            simp only [e, bind, Except.bind, List.cons_append]
            rw [show y.length - (j - x.length) = x.length + y.length - j by omega]

/-- A frame that is cut off. -/
theorem encodeHeaders_cut {cfg : Cfg} (hco : CoderOk cfg) {order : Order} (ho : OrderOk order) (hs : List Hdr)
    {st st' : Enc} {d : Dec} {f : List Nat} (hsy : Sync cfg st d) (hb : ∀ h ∈ hs, Bytes h)
    (he : encodeHeaders order cfg st hs = (st', .ok f)) :
    (hs = [] → ∀ m, m < f.length → decodeHeaders cfg d (f.take m) = .error .index) ∧
    (hs ≠ [] → ∃ d' init last k, decodeHeaders cfg d f = .ok (d', init ++ [last]) ∧ (cfg.huffman ≠ none → k = 0) ∧ k ≤ f.length ∧
      k ≤ last.2.length ∧ f.drop (f.length - k) = last.2.drop (last.2.length - k) ∧
      (∀ m, m + k < f.length → decodeHeaders cfg d (f.take m) = .error .index) ∧
      ∀ m, f.length ≤ m + k → m ≤ f.length → ∃ d'', decodeHeaders cfg d (f.take m) =
        .ok (d'', init ++ [(last.1, last.2.take (last.2.length - (f.length - m)))])) := by
  unfold encodeHeaders packB at he
  by_cases hl : hs.length < 256
  · simp only [if_pos hl] at he
    cases h1 : encodeLoop order cfg (grow st) hs with
    | mk st1 o1 =>
    rw [h1] at he
    cases o1 with
    | error e => simp at he
    | ok x =>
      simp only [Prod.mk.injEq] at he
      obtain ⟨rfl, hfr⟩ := he
      obtain ⟨hdrop, _, hlen⟩ := frame_spec hfr
      have hfe : f = f.take 8 ++ ([hs.length] ++ x) := by rw [← hdrop, List.take_append_drop]
      have h8 : (f.take 8).length = 8 := by rw [List.length_take, hlen]; omega
      have hlx : f.length = 9 + x.length := by
        rw [hlen, List.length_append, List.length_singleton]; omega
      have hshort : ∀ m, m < 9 → decodeHeaders cfg d (f.take m) = .error .index := by
        intro m hm
        have : (f.take m).drop 8 = [] := by
          rw [List.drop_eq_nil_iff, List.length_take]; omega
        simp only [decodeHeaders, this, readByte, bind, Except.bind]
      have hlong : ∀ m, 9 ≤ m → decodeHeaders cfg d (f.take m) = decodeLoop cfg hs.length d (x.take (m - 9)) := by
        intro m hm
        obtain ⟨i, rfl⟩ : ∃ i, m = 9 + i := ⟨m - 9, by omega⟩
        have : (f.take (9 + i)).drop 8 = hs.length :: x.take i := by
          rw [List.drop_take, hdrop, show 9 + i - 8 = i + 1 by omega]
          rfl
        simp only [decodeHeaders, this, readByte, bind, Except.bind]
        rw [show 9 + i - 9 = i by omega]
      constructor
      · rintro rfl m hm
        simp only [encodeLoop, Prod.mk.injEq, Except.ok.injEq] at h1
        obtain ⟨_, rfl⟩ := h1
        exact hshort m (by rw [hlx] at hm; simpa using hm)
      · intro hne
        obtain ⟨d', init, last, k, e1, e2, e3, e4, e5, e6, e7⟩ := encodeLoop_cut hco ho hs hne (sync_grow hsy) hb h1
        refine ⟨d', init, last, k, ?_, e2, by omega, e4, ?_, fun m hm => ?_, fun m hm hm' => ?_⟩
        · have := hlong f.length (by omega)
          rw [List.take_length, show f.length - 9 = x.length by omega, List.take_length] at this
          rw [this, e1]
        · rw [hfe, ← List.append_assoc, drop_end e3, e5]
        · by_cases hm9 : m < 9
          · exact hshort m hm9
          · rw [hlong m (by omega)]
            exact e6 _ (by omega)
        · rw [hlong m (by omega)]
          obtain ⟨d'', e⟩ := e7 (m - 9) (by omega) (by omega)
          refine ⟨d'', ?_⟩
          rw [e, show x.length - (m - 9) = f.length - m by omega]
  · simp only [if_neg hl, Prod.mk.injEq, reduceCtorEq, and_false] at he

end Verif.HeaderDiff
