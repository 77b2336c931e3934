import Verif.HeaderDiff.Repeat
import Verif.HeaderDiff.Grow
/-
The size of what the headerdiff encoder writes.
-/
namespace Verif.HeaderDiff
open Verif Verif.Bits.Spec

/-- How many digits to the base 128 a number has. -/
def digits (v : Nat) : Nat := if v < 128 then 1 else 1 + digits (v / 128)
termination_by v
decreasing_by omega

theorem digits_pos (v : Nat) : 1 ≤ digits v := by
  rw [digits]
  split <;> omega

theorem digits_mono {v : Nat} : ∀ {w : Nat}, v ≤ w → digits v ≤ digits w := by
  induction v using Nat.strongRecOn with
  | _ v ih =>
    intro w h
    by_cases h1 : v < 128
    · rw [digits, if_pos h1]
      exact digits_pos w
    · rw [digits.eq_1 v, if_neg h1, digits.eq_1 w, if_neg (show ¬ w < 128 by omega)]
      have := ih (v / 128) (by omega) (Nat.div_le_div_right (c := 128) h)
      omega

theorem digits_le (v : Nat) (hv : 0 < v) : digits v ≤ v := by
  induction v using Nat.strongRecOn with
  | _ v ih =>
    rw [digits]
    split
    · omega
    · have := ih (v / 128) (by omega) (by omega)
      omega

theorem digits_pow (c : Nat) : ∀ v, v < 128 ^ (c + 1) → digits v ≤ c + 1 := by
  induction c with
  | zero =>
    intro v h
    rw [digits, if_pos (by simpa using h)]
  | succ c ih =>
    intro v h
    rw [digits]
    split
    · omega
    · have := ih (v / 128) (by
        rw [Nat.div_lt_iff_lt_mul (by decide)]
        rw [pow_succ] at h
        exact h)
      omega

theorem packB_length {v : Nat} {out : List Nat} (h : packB v = .ok out) : out.length = 1 := by
  unfold packB at h
  split at h <;> cases h
  rfl

theorem packH_length {v : Nat} {out : List Nat} (h : packH v = .ok out) : out.length = 2 := by
  unfold packH at h
  split at h <;> cases h
  rfl

theorem writeLoop_digits (fuel : Nat) : ∀ v out, 0 < v → writeLoop fuel v = .ok out → out.length = digits v := by
  induction fuel with
  | zero => intro v out _ h; cases h
  | succ fuel ih =>
    intro v out hv h
    simp only [writeLoop, if_pos hv, bind, Except.bind] at h
    split at h
    · cases h
    · rename_i x hx
      split at h
      · cases h
      · rename_i y hy
        cases h
        have hl := packB_length hx
        rw [List.length_append, hl, digits]
        by_cases h0 : v < 128
        · rw [if_pos h0]
          have : v / 128 = 0 := by omega
          rw [this] at hy
          cases fuel with
          | zero => cases hy
          | succ f =>
            simp only [writeLoop, gt_iff_lt, Nat.lt_irrefl, if_false] at hy
            cases hy
            rfl
        · rw [if_neg h0, ih _ _ (by omega) hy]

theorem writeTail_digits {v : Nat} {out : List Nat} (h : writeTail v = .ok out) : out.length = digits v := by
  unfold writeTail at h
  split at h
  · rename_i hv
    subst hv
    rw [packB_length h, digits, if_pos (by decide)]
  · exact writeLoop_digits _ _ _ (by omega) h

/-- An integer without a prefix. -/
theorem integer_zero_length {b v : Nat} {out : List Nat} (h : writeInteger b 0 v = .ok out) : out.length = digits v := by
  have hm : maxValue 0 = .ok 0 := rfl
  simp only [writeInteger, hm, bind, Except.bind, Nat.not_lt_zero, if_false, writeFull, gt_iff_lt, Nat.lt_irrefl] at h
  split at h
  · cases h
  · rename_i r hr
    cases h
    rw [List.nil_append]
    exact writeTail_digits hr

/-- An integer with a prefix of 4 or 5 bits. -/
theorem integer_short_length {b p v : Nat} {out : List Nat} (hp : p = 4 ∨ p = 5) (h : writeInteger b p v = .ok out) :
    1 ≤ out.length ∧ out.length ≤ 1 + digits v := by
  obtain ⟨hm, h0, h8⟩ := maxValue_short (p := p) (by omega)
  simp only [writeInteger, hm, bind, Except.bind] at h
  split at h
  · rw [packB_length h]
    omega
  · simp only [writeFull, gt_iff_lt, if_pos h0] at h
    split at h
    · cases h
    · rename_i x hx
      split at h
      · cases h
      · rename_i y hy
        cases h
        rw [List.length_append, packB_length hx, writeTail_digits hy]
        have := digits_mono (show v - (2 ^ p - 1) ≤ v by omega)
        omega

/-- The bytes of a string. -/
def textSize (cfg : Cfg) (s : Str) : Nat :=
  match cfg.huffman with
  | some h => ((textBits h (s ++ [256])).length + 7) / 8
  | none => digits s.length + s.length

theorem writeString_length {cfg : Cfg} {s : Str} {out : List Nat} (h : writeString cfg s = .ok out) : out.length = textSize cfg s := by
  unfold writeString at h
  unfold textSize
  split at h
  · rename_i c hc
    rw [hc]
    by_cases hs : ∃ x ∈ s ++ [256], Dict.has c.encoder x = false
    · rw [encode_error c s hs] at h
      cases h
    · have hs' : ∀ x ∈ s ++ [256], Dict.has c.encoder x = true := by
        intro x hx
        cases hq : Dict.has c.encoder x with
        | true => rfl
        | false => exact absurd ⟨x, hx, hq⟩ hs
      rw [encode_spec c s (fun x hx => hs' x (by simp [hx])) (hs' 256 (by simp))] at h
      cases h
      exact pack_length _
  · rename_i hc
    simp only [bind, Except.bind] at h
    split at h
    · cases h
    · rename_i n hn
      cases h
      rw [List.length_append, integer_zero_length hn, hc]

/-- What a delta may add to a coded text: the length of the prefix. -/
def deltaSize (cfg : Cfg) (s : Str) : Nat := if cfg.huffman = none then 0 else digits s.length

theorem drop_size {cfg : Cfg} {s : Str} {k : Nat} (h0 : 0 < k) (hk : k ≤ s.length) :
    digits k + textSize cfg (s.drop k) ≤ textSize cfg s + deltaSize cfg s := by
  unfold textSize deltaSize
  cases cfg.huffman with
  | none =>
    simp only [List.length_drop, if_true]
    have := digits_le k h0
    have := digits_mono (show s.length - k ≤ s.length by omega)
    omega
  | some h =>
    simp only [reduceCtorEq, if_false]
    have h1 := digits_mono hk
    have h2 : (textBits h (s.drop k ++ [256])).length ≤ (textBits h (s ++ [256])).length := by
      conv => rhs; rw [← List.take_append_drop k s]
      unfold textBits
      simp only [List.flatMap_append, List.length_append]
      omega
    omega

/-- The most that a header costs if no number is above `n`. -/
def hdrMost (cfg : Cfg) (n : Nat) (h : Hdr) : Nat :=
  1 + digits n + max (digits n) (textSize cfg h.1) + textSize cfg h.2 + deltaSize cfg h.2

/-! ### Small numbers -/

/-- The numbers of the encoder: of entries below `n`, of names below `m`, and so many entries and names at most. -/
structure Below (n m : Nat) (st : Enc) : Prop where
  index : ∀ p ∈ st.table, p.2.index < n
  table : st.table.length ≤ n
  name : ∀ p ∈ st.names, p.2 < m
  names : st.names.length ≤ m

theorem dict_del_mem {α β : Type} [DecidableEq α] (d : Dict α β) (k : α) :
    (Dict.del d k).length ≤ d.length ∧ ∀ p ∈ Dict.del d k, p ∈ d := by
  induction d with
  | nil => exact ⟨Nat.le_refl _, fun p hp => hp⟩
  | cons q d ih =>
    obtain ⟨k', v'⟩ := q
    simp only [Dict.del]
    split
    · exact ⟨by simp, fun p hp => List.mem_cons_of_mem _ hp⟩
    · refine ⟨by simpa using ih.1, fun p hp => ?_⟩
      rcases List.mem_cons.1 hp with rfl | hp
      · exact List.mem_cons_self
      · exact List.mem_cons_of_mem _ (ih.2 p hp)

theorem dict_set_mem {α β : Type} [DecidableEq α] (d : Dict α β) (k : α) (v : β) : ∀ p ∈ Dict.set d k v, p ∈ d ∨ p.2 = v := by
  induction d with
  | nil =>
    intro p hp
    simp only [Dict.set, List.mem_singleton] at hp
    exact .inr (by rw [hp])
  | cons q d ih =>
    obtain ⟨k', v'⟩ := q
    intro p hp
    simp only [Dict.set] at hp
    split at hp
    · rcases List.mem_cons.1 hp with rfl | hp
      · exact .inr rfl
      · exact .inl (List.mem_cons_of_mem _ hp)
    · rcases List.mem_cons.1 hp with rfl | hp
      · exact .inl List.mem_cons_self
      · exact (ih p hp).imp (List.mem_cons_of_mem _) id

theorem dict_set_le {α β : Type} [DecidableEq α] (d : Dict α β) (k : α) (v : β) :
    (Dict.set d k v).length ≤ d.length + 1 ∧ (Dict.get? d k ≠ none → (Dict.set d k v).length = d.length) := by
  induction d with
  | nil => exact ⟨Nat.le_refl _, fun h => absurd rfl h⟩
  | cons q d ih =>
    obtain ⟨k', v'⟩ := q
    simp only [Dict.set]
    rw [Dict.get?_cons]
    split
    · exact ⟨by simp, fun _ => rfl⟩
    · simp only [List.length_cons]
      exact ⟨by omega, fun h => by rw [ih.2 h]⟩

theorem dict_get_mem {α β : Type} [DecidableEq α] {d : Dict α β} {k : α} {v : β} (h : Dict.get? d k = some v) : ∃ p ∈ d, p.2 = v := by
  induction d with
  | nil => cases h
  | cons q d ih =>
    obtain ⟨k', v'⟩ := q
    rw [Dict.get?_cons] at h
    split at h
    · cases h
      exact ⟨_, List.mem_cons_self, rfl⟩
    · obtain ⟨p, hp, hv⟩ := ih h
      exact ⟨p, List.mem_cons_of_mem _ hp, hv⟩

theorem below_count {n m : Nat} {st : Enc} (h : Below n m st) (ref : Entry) : Below n m (countUsage st ref) := by
  unfold countUsage
  split
  · exact h
  · rename_i e he
    obtain ⟨p, hp, hv⟩ := dict_get_mem he
    refine ⟨fun q hq => ?_, ?_, h.name, h.names⟩
    · rcases dict_set_mem _ _ _ q hq with hq | hq
      · exact h.index q hq
      · rw [hq]
        have := h.index p hp
        rw [hv] at this
        exact this
    · exact le_of_eq_of_le ((dict_set_le _ _ _).2 (by rw [he]; simp)) h.table

theorem below_grow {n m : Nat} {st : Enc} (h : Below n m st) : Below n m (grow st) := by
  refine ⟨fun p hp => ?_, ?_, h.name, h.names⟩
  · obtain ⟨q, hq, rfl⟩ := List.mem_map.1 hp
    exact h.index q hq
  · simpa [grow] using h.table

theorem below_indexing {n m : Nat} {st st' : Enc} (h : Below n m st) {name value : Str} {hr : HR} {b : Nat}
    (href : hr.indexing = .substitution → ∃ k e, (k, e) ∈ st.table ∧ hr.reference = some e)
    (ha : applyIndexing st name value hr = .ok (st', b)) : Below (n + 1) m st' := by
  unfold applyIndexing at ha
  split at ha
  · rename_i hi
    obtain ⟨k, e, hm, hre⟩ := href hi
    rw [hre] at ha
    cases ha
    refine ⟨fun q hq => ?_, ?_, h.name, h.names⟩
    · rcases dict_set_mem _ _ _ q hq with hq | hq
      · exact Nat.lt_succ_of_lt (h.index q ((dict_del_mem _ _).2 q hq))
      · rw [hq]
        exact Nat.lt_succ_of_lt (h.index _ hm)
    · refine Nat.le_trans (dict_set_le _ _ _).1 ?_
      have := (dict_del_mem st.table e.full).1
      have := h.table
      omega
  · cases ha
    refine ⟨fun q hq => ?_, ?_, h.name, h.names⟩
    · rcases dict_set_mem _ _ _ q hq with hq | hq
      · exact Nat.lt_succ_of_lt (h.index q hq)
      · rw [hq]
        exact Nat.lt_succ_of_le h.table
    · exact Nat.le_trans (dict_set_le _ _ _).1 (Nat.succ_le_succ h.table)
  · cases ha
    exact ⟨fun q hq => Nat.lt_succ_of_lt (h.index q hq), Nat.le_succ_of_le h.table, h.name, h.names⟩

/-! ### One header -/

theorem writeName_size {cfg : Cfg} {n m : Nat} {st st' : Enc} (h : Below n m st) {b p : Nat} (hp : p = 4 ∨ p = 5) {name : Str}
    {out : List Nat} (hw : writeName cfg st b p name = (st', .ok out)) :
    1 ≤ out.length ∧ out.length ≤ 1 + max (digits m) (textSize cfg name) ∧ Below n (m + 1) st' := by
  unfold writeName at hw
  split at hw
  · rename_i i hi
    simp only [Prod.mk.injEq] at hw
    obtain ⟨rfl, hw⟩ := hw
    obtain ⟨q, hq, hqi⟩ := dict_get_mem hi
    have := h.name q hq
    have := digits_mono (show i + 1 ≤ m by omega)
    obtain ⟨l1, l2⟩ := integer_short_length hp hw
    exact ⟨l1, by omega, h.index, h.table, fun q hq => Nat.lt_succ_of_lt (h.name q hq), Nat.le_succ_of_le h.names⟩
  · simp only at hw
    split at hw
    · cases hw
    · rename_i x hx
      cases hw
      simp only [bind, Except.bind] at hx
      split at hx
      · cases hx
      · rename_i y hy
        split at hx
        · cases hx
        · rename_i z hz
          cases hx
          have h1 : y.length = 1 := by
            obtain ⟨hm, h0, h8⟩ := maxValue_short (p := p) (by omega)
            have hlt : 0 < 2 ^ p - 1 := by rcases hp with rfl | rfl <;> decide
            simp only [writeInteger, hm, bind, Except.bind, if_pos hlt, if_pos h8] at hy
            exact packB_length hy
          have h2 := writeString_length hz
          rw [List.length_append, h1, h2]
          refine ⟨by omega, by omega, h.index, h.table, fun q hq => ?_, ?_⟩
          · rcases dict_set_mem _ _ _ q hq with hq | hq
            · exact Nat.lt_succ_of_lt (h.name q hq)
            · rw [hq]
              exact Nat.lt_succ_of_le h.names
          · exact Nat.le_trans (dict_set_le _ _ _).1 (Nat.succ_le_succ h.names)

theorem writeIndexed_size {e : Entry} {out : List Nat} (h : writeIndexed e = .ok out) : 1 ≤ out.length ∧ out.length ≤ 2 := by
  unfold writeIndexed at h
  split at h
  · rw [packB_length h]
    omega
  · by_cases hv : e.index - 64 < 16383
    · obtain ⟨x, y, _, _, e1, _⟩ := integer_long 0xc0 (e.index - 64) (by decide) (by decide) hv
      rw [e1] at h
      cases h
      exact ⟨by simp, by simp⟩
    · rw [integer_long_error _ _ (by omega)] at h
      cases h

theorem encodeHeader_size {order : Order} (ho : OrderOk order) {cfg : Cfg} {n m N : Nat} {st st' : Enc} (hb : Below n m st)
    (hn : n ≤ N) (hm : m ≤ N) {h : Hdr} {out : List Nat} (he : encodeHeader order cfg st h = (st', .ok out)) :
    1 ≤ out.length ∧ out.length ≤ hdrMost cfg N h ∧ Below (n + 1) (m + 1) st' := by
  have hN := digits_pos N
  unfold encodeHeader determine at he
  cases hg : Dict.get? st.table (h.1 ++ h.2) with
  | some e =>
    simp only [hg] at he
    simp only [if_true, Prod.mk.injEq] at he
    obtain ⟨rfl, hw⟩ := he
    obtain ⟨l1, l2⟩ := writeIndexed_size hw
    refine ⟨l1, by unfold hdrMost; omega, fun q hq => ?_, ?_, fun q hq => Nat.lt_succ_of_lt (hb.name q hq), Nat.le_succ_of_le hb.names⟩
    · rcases dict_set_mem _ _ _ q hq with hq | hq
      · exact Nat.lt_succ_of_lt (hb.index q hq)
      · obtain ⟨p, hp, hv⟩ := dict_get_mem hg
        have := hb.index p hp
        rw [hv] at this
        rw [hq]
        exact Nat.lt_succ_of_lt this
    · exact Nat.le_succ_of_le (le_of_eq_of_le ((dict_set_le _ _ _).2 (by rw [hg]; simp)) hb.table)
  | none =>
    simp only [hg] at he
    have hc := chooseNew_spec ho cfg st h.1 h.2
    rw [if_neg hc.kind] at he
    generalize chooseNew order cfg st h.1 h.2 = hr at he hc
    unfold writeNew at he
    simp only at he
    split at he
    · cases he
    · rename_i st1 b ha
      have hb1 : Below (n + 1) m st1 := by
        refine below_indexing (st := { st with ticks := st.ticks + 1 }) ⟨hb.index, hb.table, hb.name, hb.names⟩ (fun hi => ?_) ha
        obtain ⟨k, e, x1, x2, _⟩ := hc.sub hi
        exact ⟨k, e, x1, x2⟩
      have hp : (if hr.indexing ≠ .none then 4 else 5) = 4 ∨ (if hr.indexing ≠ .none then 4 else 5) = 5 := by split <;> simp
      generalize (if hr.indexing ≠ .none then 4 else 5) = p at he hp
      split at he
      · cases he
      · rename_i st2 x hx
        simp only [Prod.mk.injEq, bind, Except.bind] at he
        obtain ⟨rfl, he⟩ := he
        split at he
        · cases he
        · rename_i y hy
          cases he
          have hly := writeString_length hy
          rw [List.length_append, hly]
          by_cases hd : (cfg.deltaUsage && hr.kind == .delta) = true
          · rw [if_pos hd] at hx
            rw [if_pos hd]
            simp only [Bool.and_eq_true, beq_iff_eq] at hd
            obtain ⟨_, k, e, hm', href, _, hpl, h1, _⟩ := hc.delta hd.2
            have hi := hb.index _ hm'
            unfold writeDelta at hx
            rw [href] at hx
            simp only at hx
            split at hx
            · cases hx
            · rename_i z hz
              cases hx
              simp only [bind, Except.bind] at hz
              split at hz
              · cases hz
              · rename_i u hu
                split at hz
                · cases hz
                · rename_i w hw
                  cases hz
                  obtain ⟨u1, u2⟩ := integer_short_length hp hu
                  have w1 := integer_zero_length hw
                  have hle : hr.prefixLength ≤ h.2.length := by
                    rw [hpl]
                    exact Nat.le_trans (shared_le _ _ _) (commonPrefix_le _ _).1
                  have := drop_size (cfg := cfg) (show 0 < hr.prefixLength by omega) hle
                  have := digits_mono (show e.index ≤ N by exact Nat.le_of_lt (Nat.lt_of_lt_of_le hi hn))
                  rw [List.length_append, w1]
                  have hbc := below_count hb1 e
                  refine ⟨by omega, by unfold hdrMost; omega, hbc.index, hbc.table, fun q hq => Nat.lt_succ_of_lt (hbc.name q hq),
                    Nat.le_succ_of_le hbc.names⟩
          · rw [if_neg hd] at hx
            rw [if_neg hd]
            unfold writeLiteral at hx
            split at hx
            · cases hx
            · rename_i st3 z hz
              obtain ⟨z1, z2, hb2⟩ := writeName_size hb1 hp hz
              have := digits_mono hm
              split at hx
              · rename_i hsub
                obtain ⟨k, e, hm', href, _⟩ := hc.sub hsub
                have hi := hb.index _ hm'
                rw [href] at hx
                simp only [Prod.mk.injEq, bind, Except.bind] at hx
                obtain ⟨rfl, hx⟩ := hx
                split at hx
                · cases hx
                · rename_i w hw
                  cases hx
                  have w1 := integer_zero_length hw
                  have := digits_mono (show e.index ≤ N by exact Nat.le_of_lt (Nat.lt_of_lt_of_le hi hn))
                  rw [List.length_append, w1]
                  exact ⟨by omega, by unfold hdrMost; omega, hb2⟩
              · cases hx
                exact ⟨by omega, by unfold hdrMost; omega, hb2⟩

theorem encodeLoop_size {order : Order} (ho : OrderOk order) {cfg : Cfg} (hs : List Hdr) : ∀ {n m N : Nat} {st st' : Enc} {out : List Nat},
    Below n m st → n + hs.length ≤ N → m + hs.length ≤ N → encodeLoop order cfg st hs = (st', .ok out) →
    hs.length ≤ out.length ∧ out.length ≤ (hs.map (hdrMost cfg N)).sum ∧ Below (n + hs.length) (m + hs.length) st' := by
  induction hs with
  | nil => intro n m N st st' out hb _ _ he; cases he; exact ⟨by simp, by simp, hb⟩
  | cons h hs ih =>
    intro n m N st st' out hb hn hm he
    simp only [List.length_cons] at hn hm
    unfold encodeLoop at he
    split at he
    · cases he
    · rename_i st1 x hx
      split at he
      · cases he
      · rename_i st2 y hy
        cases he
        obtain ⟨a1, a2, a3⟩ := encodeHeader_size ho hb (N := N) (by omega) (by omega) hx
        obtain ⟨b1, b2, b3⟩ := ih a3 (N := N) (by omega) (by omega) hy
        simp only [List.length_cons, List.length_append, List.map_cons, List.sum_cons]
        refine ⟨by omega, by omega, ?_⟩
        rw [show n + (hs.length + 1) = n + 1 + hs.length by omega, show m + (hs.length + 1) = m + 1 + hs.length by omega]
        exact b3

theorem frame_length {data f : List Nat} (h : frame data = .ok f) : f.length = 8 + data.length := by
  simp only [frame, bind, Except.bind] at h
  split at h
  · cases h
  · rename_i n hn
    have h0 : packB 0 = .ok [0] := rfl
    have h1 : packL 0 = .ok [0, 0, 0, 0] := rfl
    simp only [h0, h1] at h
    cases h
    simp only [List.length_append, packH_length hn, List.length_cons, List.length_nil]

theorem encodeHeaders_size {order : Order} (ho : OrderOk order) {cfg : Cfg} {hs : List Hdr} {n m N : Nat} {st st' : Enc} {f : List Nat}
    (hb : Below n m st) (hn : n + hs.length ≤ N) (hm : m + hs.length ≤ N) (he : encodeHeaders order cfg st hs = (st', .ok f)) :
    9 + hs.length ≤ f.length ∧ f.length ≤ 9 + (hs.map (hdrMost cfg N)).sum ∧ Below (n + hs.length) (m + hs.length) st' := by
  unfold encodeHeaders at he
  simp only at he
  split at he
  · cases he
  · rename_i c hc
    split at he
    · cases he
    · rename_i st1 x hx
      simp only [Prod.mk.injEq] at he
      obtain ⟨rfl, hf⟩ := he
      obtain ⟨a1, a2, a3⟩ := encodeLoop_size ho hs (below_grow hb) hn hm hx
      have := frame_length hf
      rw [List.length_append, packB_length hc] at this
      exact ⟨by omega, by omega, a3⟩

end Verif.HeaderDiff
