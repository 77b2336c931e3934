import Verif.HeaderDiff.SessionLemmas
/-
headerdiff: when encoding succeeds, and how long the frames are.
-/
namespace Verif.HeaderDiff
open Verif

/-! ### Integers and strings -/

theorem writeLoop_length (fuel : Nat) : ∀ k v out, v < 128 ^ k → writeLoop fuel v = .ok out → out.length ≤ k := by
  induction fuel with
  | zero => intro k v out _ h; simp [writeLoop] at h
  | succ fuel ih =>
    intro k v out hv h
    unfold writeLoop at h
    by_cases h0 : v > 0
    · rw [if_pos h0] at h
      rcases k with _ | k
      · simp at hv; omega
      · simp only [bind, Except.bind] at h
        generalize (if v / 128 > 0 then 0x80 else 0) ||| v - v / 128 * 128 = x at h
        cases hp : packB x with
        | error e => simp [hp] at h
        | ok o =>
          have ho : o.length = 1 := by
            unfold packB at hp
            split at hp
            · cases hp; rfl
            · cases hp
          simp only [hp] at h
          cases hr : writeLoop fuel (v / 128) with
          | error e => simp [hr] at h
          | ok rest =>
            simp only [hr, Except.ok.injEq] at h
            subst h
            have := ih k (v / 128) rest (by rw [Nat.pow_succ] at hv; omega) hr
            rw [List.length_append]
            omega
    · rw [if_neg h0] at h
      cases h
      simp

theorem writeTail_length {v : Nat} {out : List Nat} (hv : v < 2 ^ 21) (h : writeTail v = .ok out) : out.length ≤ 3 := by
  unfold writeTail at h
  by_cases h0 : v = 0
  · rw [if_pos h0] at h
    cases h
    simp
  · rw [if_neg h0] at h
    exact writeLoop_length _ 3 v out (by simpa using hv) h

theorem writeInteger_length {b p v : Nat} {out : List Nat} (hp : p = 0 ∨ p = 4 ∨ p = 5) (hv : v < 2 ^ 21)
    (h : writeInteger b p v = .ok out) : out.length ≤ (if p = 0 then 3 else 4) := by
  unfold writeInteger at h
  cases hm : maxValue p with
  | error e => simp [hm, bind, Except.bind] at h
  | ok m =>
    simp only [hm, bind, Except.bind] at h
    split at h
    · rw [if_pos (by omega : p ≤ 8)] at h
      unfold packB at h
      split at h
      · cases h
        simp only [List.length_singleton]
        split <;> omega
      · cases h
    · cases ht : writeTail (v - m) with
      | error e =>
        rw [ht] at h
        cases hw : writeFull b p m <;> simp [hw] at h
      | ok t =>
        have := writeTail_length (by omega) ht
        rw [ht] at h
        unfold writeFull at h
        by_cases h0 : p > 0
        · rw [if_pos h0] at h
          unfold packB at h
          by_cases hbm : b ||| m < 256
          · simp only [if_pos hbm, Except.ok.injEq] at h
            subst h
            rw [if_neg (by omega)]
            simp
            omega
          · simp [if_neg hbm] at h
        · rw [if_neg h0] at h
          simp only [Except.ok.injEq] at h
          subst h
          rw [if_pos (by omega)]
          simpa using this

/-- The coder, if there is one, has codes for all bytes and for the end of a string. -/
def Covers (cfg : Cfg) : Prop :=
  ∀ h, cfg.huffman = some h → (∀ c < 256, Dict.has h.encoder c = true) ∧ Dict.has h.encoder 256 = true

theorem writeString_total {cfg : Cfg} (hc : Covers cfg) (s : Str) (hs : ∀ c ∈ s, c < 256) :
    ∃ out, writeString cfg s = .ok out ∧ (cfg.huffman = none → s.length < 2 ^ 21 → out.length ≤ s.length + 3) := by
  unfold writeString
  cases hh : cfg.huffman with
  | none =>
    obtain ⟨bs, e, _⟩ := integer_zero s.length
    refine ⟨bs ++ s, by simp [e, bind, Except.bind], fun _ hlt => ?_⟩
    have := writeInteger_length (Or.inl rfl) hlt (e 0)
    simp at this
    rw [List.length_append]
    omega
  | some h =>
    obtain ⟨h1, h2⟩ := hc h hh
    exact ⟨_, encode_spec h s (fun c hc => h1 c (hs c hc)) h2, by simp⟩

/-! ### One header -/

theorem writeIndexed_total (e : Entry) (hi : e.index < 16447) : ∃ out, writeIndexed e = .ok out ∧ out.length ≤ 2 := by
  unfold writeIndexed
  by_cases h : e.index < 64
  · rw [if_pos h]
    obtain ⟨h1, _⟩ := first_indexed e.index h
    exact ⟨[0x80 ||| e.index], by simp only [packB, if_pos h1], by simp⟩
  · rw [if_neg h]
    obtain ⟨high, low, _, _, e, _⟩ := integer_long 0xc0 (e.index - 64) (by omega) (by decide) (by omega)
    exact ⟨_, e, by simp⟩

theorem applyIndexing_length {st st1 : Enc} {name value : Str} {hr : HR} {b : Nat}
    (h : applyIndexing st name value hr = .ok (st1, b)) : st1.table.length ≤ st.table.length + 1 ∧ st1.names = st.names := by
  have hset : ∀ {β : Type} (d : Dict Str β) (k : Str) (v : β), (Dict.set d k v).length ≤ d.length + 1 := by
    intro β d k v
    have h1 := Dict.keys_set d k v
    have : (Dict.set d k v).length = (Dict.keys (Dict.set d k v)).length := by simp [Dict.keys]
    rw [this, h1]
    split <;> simp [Dict.keys]
  have hdel : ∀ {β : Type} (d : Dict Str β) (k : Str), (Dict.del d k).length ≤ d.length := by
    intro β d k
    induction d with
    | nil => exact Nat.le_refl _
    | cons p d ih =>
      change (if p.1 = k then d else p :: Dict.del d k).length ≤ _
      split
      · simp
      · simpa using ih
  unfold applyIndexing at h
  cases hi : hr.indexing with
  | none =>
    rw [hi] at h
    cases h
    exact ⟨by omega, rfl⟩
  | incremental =>
    rw [hi] at h
    cases h
    exact ⟨hset _ _ _, rfl⟩
  | substitution =>
    rw [hi] at h
    cases hrr : hr.reference with
    | none => rw [hrr] at h; cases h
    | some e =>
      rw [hrr] at h
      cases h
      refine ⟨?_, rfl⟩
      have h1 := hset (Dict.del st.table e.full) (name ++ value) { name, value, index := e.index }
      have h2 := hdel st.table e.full
      simp only
      omega

theorem countUsage_length (st : Enc) (e : Entry) : (countUsage st e).table.length = st.table.length := by
  have := (rows_countUsage st e).1
  rw [← rows_length, this, rows_length]

theorem writeDelta_total {st : Enc} {i : Indexing} {hr : HR} {e : Entry} (hr' : hr.reference = some e) :
    ∃ out, writeDelta st (flag i) (bitsFor i) hr = (countUsage st e, .ok out) ∧
      (e.index < 2 ^ 21 → hr.prefixLength < 2 ^ 21 → out.length ≤ 7) := by
  obtain ⟨_, _, hf, hlow⟩ := flag_ok i
  obtain ⟨low, bs, _, hw, _⟩ := integer_short (bitsFor i) (flag i ||| 0x40) e.index (bitsFor_ok i) hf hlow
  obtain ⟨bs2, hw2, _⟩ := integer_zero hr.prefixLength
  refine ⟨(flag i ||| 0x40 ||| low) :: bs ++ bs2, ?_, fun h1 h2 => ?_⟩
  · simp only [writeDelta, hr', hw, hw2, bind, Except.bind]
  · have l1 := writeInteger_length (by cases i <;> simp [bitsFor]) h1 hw
    have l2 := writeInteger_length (Or.inl rfl) h2 (hw2 0)
    rw [if_neg (by cases i <;> simp [bitsFor])] at l1
    simp at l2
    rw [List.length_append]
    omega

theorem writeName_total {cfg : Cfg} (hc : Covers cfg) {st : Enc} {i : Indexing} {name : Str} (hb : ∀ c ∈ name, c < 256) :
    ∃ st1 out, writeName cfg st (flag i) (bitsFor i) name = (st1, .ok out) ∧ st1.table = st.table ∧
      st1.names.length ≤ st.names.length + 1 ∧
      ((∀ n j, Dict.get? st.names n = some j → j + 1 < 2 ^ 21) → cfg.huffman = none → name.length < 2 ^ 21 →
        out.length ≤ name.length + 7) := by
  obtain ⟨hf, hlow, _⟩ := flag_ok i
  have hne : bitsFor i ≠ 0 := by cases i <;> simp [bitsFor]
  unfold writeName
  cases hn : Dict.get? st.names name with
  | some j =>
    obtain ⟨low, bs, _, hw, _⟩ := integer_short (bitsFor i) (flag i) (j + 1) (bitsFor_ok i) hf hlow
    refine ⟨st, (flag i ||| low) :: bs, by simp only [hw], rfl, by omega, fun h1 _ _ => ?_⟩
    have := writeInteger_length (by cases i <;> simp [bitsFor]) (h1 name j hn) hw
    rw [if_neg hne] at this
    omega
  | none =>
    obtain ⟨low, bs, _, hw, _⟩ := integer_short (bitsFor i) (flag i) 0 (bitsFor_ok i) hf hlow
    obtain ⟨out, hs, hl⟩ := writeString_total hc name hb
    refine ⟨{ st with names := Dict.set st.names name st.names.length }, ((flag i ||| low) :: bs) ++ out, by
      simp only [hw, hs, bind, Except.bind], rfl, ?_, fun _ h2 h3 => ?_⟩
    · simp [Dict.set_new (Dict.get?_none.1 hn)]
    · have l1 := writeInteger_length (by cases i <;> simp [bitsFor]) (by omega) hw
      rw [if_neg hne] at l1
      have l2 := hl h2 h3
      rw [List.length_append]
      omega

/-- A header is encoded if the index of every header in the table is small enough. -/
theorem encodeHeader_total {cfg : Cfg} (hc : Covers cfg) {order : Order} (ho : OrderOk order) {st : Enc} {d : Dec} {h : Hdr}
    (hs : Sync cfg st d) (hb : Bytes h) (hi : st.table.length ≤ 16447) :
    ∃ st' out, encodeHeader order cfg st h = (st', .ok out) ∧ st'.table.length ≤ st.table.length + 1 ∧
      st'.names.length ≤ st.names.length + 1 ∧
      (cfg.huffman = none → st.names.length < 2 ^ 20 → h.1.length < 2 ^ 21 → h.2.length < 2 ^ 21 →
        out.length ≤ h.1.length + h.2.length + 13) := by
  obtain ⟨name, value⟩ := h
  obtain ⟨hbn, hbv⟩ := hb
  have hidx : ∀ k e, (k, e) ∈ st.table → e.index < st.table.length := by
    intro k e hm
    have := (List.getElem?_eq_some_iff.1 (hs.table.at_ k _ _ (mem_rows hm))).1
    rw [← hs.table.len, rows_length] at this
    exact this
  have hnames : ∀ n j, Dict.get? st.names n = some j → j < st.names.length := by
    intro n j hj
    have := (List.getElem?_eq_some_iff.1 (hs.names.at_ n j hj)).1
    rw [← hs.names.len] at this
    exact this
  unfold encodeHeader determine
  cases hg : Dict.get? st.table (name ++ value) with
  | some e =>
    have hlt : e.index < 16447 := Nat.lt_of_lt_of_le (hidx _ _ (Dict.get?_mem hg)) hi
    obtain ⟨out, hw, hl⟩ := writeIndexed_total { e with age := 0 } hlt
    refine ⟨{ st with table := Dict.set st.table (name ++ value) { e with age := 0 }, ticks := st.ticks + 1 }, out,
      by simp only [if_true, hw], ?_, Nat.le_succ _, fun _ _ _ _ => by omega⟩
    have := rows_touch (e' := { e with age := 0 }) hg rfl
    simp only
    rw [← rows_length, this, rows_length]
    omega
  | none =>
    have hch := chooseNew_spec ho cfg st name value
    generalize chooseNew order cfg st name value = hr at hch
    simp only [if_neg hch.kind]
    obtain ⟨st1, ha, hn1, _⟩ := indexing_spec (st := { st with ticks := st.ticks + 1 }) ⟨hs.table, hs.names⟩
      (hr := hr) (name := name) (value := value) ⟨hch.kind, hch.delta, hch.sub, hch.inc⟩ hg
    have hlen := (applyIndexing_length ha).1
    simp only at hlen
    simp only at hn1
    simp only [writeNew, ha, bitsFor_eq]
    by_cases hd : (cfg.deltaUsage && hr.kind == .delta) = true
    · rw [if_pos hd]
      simp only [hd, if_true]
      rw [Bool.and_eq_true] at hd
      obtain ⟨_, k, e, hm, hre, _, hpl, _⟩ := hch.delta (by simpa using hd.2)
      obtain ⟨x, hx, hxl⟩ := writeDelta_total (st := st1) (i := hr.indexing) (hr := hr) hre
      obtain ⟨y, hy, hyl⟩ := writeString_total hc (value.drop hr.prefixLength) (fun c hc => hbv c (List.mem_of_mem_drop hc))
      simp only [hx, hy, bind, Except.bind]
      refine ⟨_, _, rfl, ?_, ?_, fun h1 h2 h3 h4 => ?_⟩
      · rw [countUsage_length]; exact hlen
      · rw [(rows_countUsage st1 e).2.2, hn1]; omega
      · have l1 := hidx k e hm
        have l2 : hr.prefixLength ≤ value.length := by
          rw [hpl]
          exact Nat.le_trans (shared_le _ _ _) (commonPrefix_le _ _).1
        have l3 := hxl (by omega) (by omega)
        have l4 := hyl h1 (by rw [List.length_drop]; omega)
        rw [List.length_drop] at l4
        rw [List.length_append]
        omega
    · rw [if_neg hd]
      simp only [if_neg hd]
      obtain ⟨st2, x, hx, ht2, hn2, hxl⟩ := writeName_total hc (st := st1) (i := hr.indexing) hbn
      obtain ⟨y, hy, hyl⟩ := writeString_total hc value hbv
      simp only [writeLiteral, hx]
      have hlx : cfg.huffman = none → st.names.length < 2 ^ 20 → name.length < 2 ^ 21 → x.length ≤ name.length + 7 :=
        fun h1 h2 h3 => hxl (fun n j hj => by rw [hn1] at hj; have := hnames n j hj; omega) h1 h3
      rw [hn1] at hn2
      by_cases hsub : hr.indexing = .substitution
      · obtain ⟨k, e, hm, hre, _⟩ := hch.sub hsub
        obtain ⟨bs, hw, _⟩ := integer_zero e.index
        simp only [if_pos hsub, hre, hw, hy, bind, Except.bind]
        refine ⟨_, _, rfl, by rw [ht2]; exact hlen, hn2, fun h1 h2 h3 h4 => ?_⟩
        have l1 := hidx k e hm
        have l2 := writeInteger_length (Or.inl rfl) (by omega) (hw 0)
        simp at l2
        have l3 := hlx h1 h2 h3
        have l4 := hyl h1 h4
        simp only [List.length_append]
        omega
      · simp only [if_neg hsub, hy, bind, Except.bind]
        refine ⟨_, _, rfl, by rw [ht2]; exact hlen, hn2, fun h1 h2 h3 h4 => ?_⟩
        have l3 := hlx h1 h2 h3
        have l4 := hyl h1 h4
        simp only [List.length_append]
        omega

/-! ### Messages -/

/-- The number of bytes of some headers. -/
def bytesOf (hs : List Hdr) : Nat := (hs.map fun h => h.1.length + h.2.length).sum

theorem encodeLoop_total {cfg : Cfg} (hco : CoderOk cfg) (hc : Covers cfg) {order : Order} (ho : OrderOk order) (hs : List Hdr) :
    ∀ {st : Enc} {d : Dec}, Sync cfg st d → (∀ h ∈ hs, Bytes h) → st.table.length + hs.length ≤ 16448 →
    ∃ st' out, encodeLoop order cfg st hs = (st', .ok out) ∧ st'.table.length ≤ st.table.length + hs.length ∧
      st'.names.length ≤ st.names.length + hs.length ∧ (∃ d', Sync cfg st' d') ∧
      (cfg.huffman = none → st.names.length + hs.length ≤ 2 ^ 20 → bytesOf hs < 2 ^ 21 →
        out.length ≤ bytesOf hs + 13 * hs.length) := by
  induction hs with
  | nil => intro st d hsy _ _; exact ⟨st, [], rfl, by simp, by simp, ⟨d, hsy⟩, by simp⟩
  | cons h hs ih =>
    intro st d hsy hb hi
    rw [List.length_cons] at hi
    obtain ⟨st1, x, h1, ht1, hn1, hl1⟩ := encodeHeader_total hc ho hsy (hb h (by simp)) (by omega)
    obtain ⟨d1, h', hsy1, _⟩ := encodeHeader_spec hco ho hsy (hb h (by simp)).1 (hb h (by simp)).2 h1
    obtain ⟨st2, y, h2, ht2, hn2, hex, hl2⟩ := ih hsy1 (fun z hz => hb z (by simp [hz])) (by omega)
    refine ⟨st2, x ++ y, by simp only [encodeLoop, h1, h2], by rw [List.length_cons]; omega,
      by rw [List.length_cons]; omega, hex, fun hh hn hby => ?_⟩
    rw [List.length_cons] at hn
    simp only [bytesOf, List.map_cons, List.sum_cons] at hby
    have l1 := hl1 hh (by omega) (by omega) (by omega)
    have l2 := hl2 hh (by omega) (by unfold bytesOf; omega)
    simp only [bytesOf, List.map_cons, List.sum_cons, List.length_append, List.length_cons] at l2 ⊢
    omega

theorem grow_length (st : Enc) : (grow st).table.length = st.table.length := by
  rw [← rows_length, rows_grow, rows_length]

/-- A message is encoded unless there are too many headers or the payload is too long. -/
theorem encodeHeaders_total {cfg : Cfg} (hco : CoderOk cfg) (hc : Covers cfg) {order : Order} (ho : OrderOk order) (hs : List Hdr)
    {st : Enc} {d : Dec} (hsy : Sync cfg st d) (hb : ∀ h ∈ hs, Bytes h) (hi : st.table.length + hs.length ≤ 16448) :
    ∃ st' payload, encodeHeaders order cfg st hs =
        (st', if 255 < hs.length ∨ 65535 < payload.length then .error .struct
          else .ok ([payload.length / 256, payload.length % 256, 0, 0, 0, 0, 0, 0] ++ payload)) ∧
      st'.table.length ≤ st.table.length + hs.length ∧ st'.names.length ≤ st.names.length + hs.length ∧
      (cfg.huffman = none → st.names.length + hs.length ≤ 2 ^ 20 → bytesOf hs < 2 ^ 21 →
        payload.length ≤ bytesOf hs + 13 * hs.length + 1) := by
  obtain ⟨st2, out, h1, h2, h3, _, h4⟩ := encodeLoop_total hco hc ho hs (sync_grow hsy) hb (by rw [grow_length]; exact hi)
  rw [grow_length] at h2
  have hn : (grow st).names = st.names := rfl
  rw [hn] at h3 h4
  by_cases hl : hs.length < 256
  · refine ⟨st2, hs.length :: out, ?_, h2, h3, fun a b c => by have := h4 a b c; simpa using this⟩
    simp only [encodeHeaders, packB, if_pos hl, h1]
    congr 1
    change frame (hs.length :: out) = _
    unfold frame packH packB packL
    by_cases hp : (hs.length :: out).length < 65536
    · rw [if_neg (show ¬ (255 < hs.length ∨ 65535 < (hs.length :: out).length) by omega)]
      simp only [List.cons_append, List.nil_append, if_pos hp, bind, Except.bind, Nat.zero_lt_succ, if_true]
    · rw [if_pos (show 255 < hs.length ∨ 65535 < (hs.length :: out).length by omega)]
      simp only [if_neg hp, bind, Except.bind]
  · refine ⟨grow st, [], ?_, by rw [grow_length]; omega, by rw [hn]; omega, fun _ _ _ => by simp⟩
    simp only [encodeHeaders, packB, if_neg hl]
    rw [if_pos (Or.inl (by omega))]

end Verif.HeaderDiff
