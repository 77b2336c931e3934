import Verif.HeaderDiff.Total
/-
Headers that headerdiff has sent before.
-/
namespace Verif.HeaderDiff
open Verif

/-- The bytes of a reference. -/
def refBytes (i : Nat) : List Nat := if i < 64 then [128 + i] else [192 + (i - 64) / 256, (i - 64) % 256]

theorem or_add : (∀ x < 64, 0x80 ||| x = 128 + x) ∧ ∀ x < 64, 0xc0 ||| x = 192 + x := by decide +kernel

theorem writeIndexed_bytes (e : Entry) (hi : e.index < 16447) : writeIndexed e = .ok (refBytes e.index) := by
  unfold writeIndexed refBytes
  by_cases h : e.index < 64
  · obtain ⟨h1, _⟩ := first_indexed e.index h
    rw [if_pos h, if_pos h, packB, if_pos h1, or_add.1 _ h]
  · rw [if_neg h, if_neg h]
    have hv : e.index - 64 < 16383 := by omega
    generalize e.index - 64 = v at hv
    obtain ⟨M, hM, hmax⟩ := max14
    have hh : v / 256 < 64 := by omega
    have hl : v &&& 0xff = v % 256 := Nat.and_two_pow_sub_one_eq_mod v 8
    have hmod : v % 256 < 256 := Nat.mod_lt _ (by omega)
    have hs : v >>> 8 = v / 256 := by rw [Nat.shiftRight_eq_div_pow]
    simp only [writeInteger, hmax, bind, Except.bind, if_pos (show v < M by omega),
      if_neg (show ¬ 14 ≤ 8 by omega), hl, shl_or _ _ hmod, packH, hs, or_add.2 _ hh]
    rw [if_pos (by omega), show ((192 + v / 256) * 256 + v % 256) / 256 = 192 + v / 256 by omega,
      show ((192 + v / 256) * 256 + v % 256) % 256 = v % 256 by omega]

/-- The headers are in the table, at these places. -/
def Placed (t : Dict Str Entry) (hs : List Hdr) (is : List Nat) : Prop :=
  List.Forall₂ (fun h i => ∃ x, Dict.get? (rows t) (h.1 ++ h.2) = some (x, i)) hs is

theorem Placed.rows {t t' : Dict Str Entry} (hr : rows t' = rows t) {hs : List Hdr} {is : List Nat} (h : Placed t hs is) :
    Placed t' hs is := by
  unfold Placed at h ⊢
  rw [hr]
  exact h

theorem encodeHeader_known (order : Order) (cfg : Cfg) {st : Enc} {h : Hdr} {x : Hdr} {i : Nat}
    (hx : Dict.get? (rows st.table) (h.1 ++ h.2) = some (x, i)) (hi : i < 16447) :
    ∃ st', encodeHeader order cfg st h = (st', .ok (refBytes i)) ∧ rows st'.table = rows st.table ∧ st'.size = st.size ∧
      st'.names = st.names := by
  rw [rows_get] at hx
  cases hg : Dict.get? st.table (h.1 ++ h.2) with
  | none => rw [hg] at hx; cases hx
  | some e =>
    rw [hg] at hx
    simp only [Option.map_some, Option.some.injEq, Entry.row, Prod.mk.injEq] at hx
    obtain ⟨_, rfl⟩ := hx
    have hw := writeIndexed_bytes { e with age := 0 } hi
    refine ⟨{ st with table := Dict.set st.table (h.1 ++ h.2) { e with age := 0 }, ticks := st.ticks + 1 }, ?_,
      rows_touch hg rfl, rfl, rfl⟩
    unfold encodeHeader determine
    simp only [hg, if_true, hw]

theorem encodeLoop_known (order : Order) (cfg : Cfg) (hs : List Hdr) : ∀ (is : List Nat) (st : Enc), Placed st.table hs is →
    (∀ i ∈ is, i < 16447) → ∃ st', encodeLoop order cfg st hs = (st', .ok (is.flatMap refBytes)) ∧ rows st'.table = rows st.table ∧
      st'.size = st.size ∧ st'.names = st.names := by
  induction hs with
  | nil => intro is st h _; cases h; exact ⟨st, rfl, rfl, rfl, rfl⟩
  | cons h hs ih =>
    intro is st hp hi
    cases hp with
    | cons h1 h2 =>
      rename_i i is
      obtain ⟨x, hx⟩ := h1
      obtain ⟨st1, e1, r1, z1, n1⟩ := encodeHeader_known order cfg hx (hi i (by simp))
      obtain ⟨st2, e2, r2, z2, n2⟩ := ih is st1 (Placed.rows r1 h2) (fun j hj => hi j (by simp [hj]))
      exact ⟨st2, by simp only [encodeLoop, e1, e2, List.flatMap_cons], r2.trans r1, z2.trans z1, n2.trans n1⟩

theorem refBytes_length (i : Nat) : (refBytes i).length ≤ 2 := by
  unfold refBytes
  split <;> simp

theorem refs_length (is : List Nat) : (is.flatMap refBytes).length ≤ 2 * is.length := by
  induction is with
  | nil => simp
  | cons i is ih =>
    have := refBytes_length i
    simp only [List.flatMap_cons, List.length_append, List.length_cons]
    omega

/-- The frame of headers that are in the table. -/
def refFrame (is : List Nat) : List Nat :=
  [((is.flatMap refBytes).length + 1) / 256, ((is.flatMap refBytes).length + 1) % 256, 0, 0, 0, 0, 0, 0, is.length] ++ is.flatMap refBytes

theorem encodeHeaders_known (order : Order) (cfg : Cfg) {hs : List Hdr} {is : List Nat} {st : Enc} (hp : Placed st.table hs is)
    (hi : ∀ i ∈ is, i < 16447) (hl : hs.length ≤ 255) :
    ∃ st', encodeHeaders order cfg st hs = (st', .ok (refFrame is)) ∧ rows st'.table = rows st.table ∧ st'.size = st.size ∧
      st'.names = st.names := by
  obtain ⟨st1, e1, r1, z1, n1⟩ := encodeLoop_known order cfg hs is (grow st) (Placed.rows (rows_grow st) hp) hi
  refine ⟨st1, ?_, r1.trans (rows_grow st), z1, n1⟩
  have hlen : hs.length = is.length := hp.length_eq
  have hr := refs_length is
  simp only [encodeHeaders, packB, if_pos (show hs.length < 256 by omega), e1]
  congr 1
  change frame (hs.length :: is.flatMap refBytes) = _
  unfold frame packH packB packL
  simp only [List.length_cons, if_pos (show (is.flatMap refBytes).length + 1 < 65536 by omega), bind, Except.bind, refFrame, hlen,
    List.cons_append, List.nil_append, Nat.zero_lt_succ, if_true]

theorem decodeLoop_known {cfg : Cfg} {st : Enc} {d : Dec} (hs : Sync cfg st d) (m : List Hdr) : ∀ is : List Nat, Placed st.table m is →
    (∀ i ∈ is, i < 16447) → ∃ out, decodeLoop cfg m.length d (is.flatMap refBytes) = .ok (d, out) ∧
      List.Forall₂ (fun i x => d.headers[i]? = some x) is out := by
  induction m with
  | nil => intro is h _; cases h; exact ⟨[], rfl, .nil⟩
  | cons h m ih =>
    intro is hp hi
    cases hp with
    | cons h1 h2 =>
      rename_i i is
      obtain ⟨x, hx⟩ := h1
      obtain ⟨out, e2, f2⟩ := ih is h2 (fun j hj => hi j (by simp [hj]))
      have hrow := (Dict.mem_iff_get? hs.table.wf).2 hx
      have hat := hs.table.at_ _ _ _ hrow
      have e1 := writeIndexed_spec (cfg := cfg) (d := d) (e := { name := x.1, value := x.2, index := i })
        (writeIndexed_bytes _ (hi i (by simp))) hat hs.table.bound (is.flatMap refBytes)
      refine ⟨x :: out, ?_, .cons hat f2⟩
      simp only [List.length_cons, decodeLoop, List.flatMap_cons, e1, e2, bind, Except.bind]

theorem decodeHeaders_known {cfg : Cfg} {st : Enc} {d : Dec} (hs : Sync cfg st d) {m : List Hdr} {is : List Nat}
    (hp : Placed st.table m is) (hi : ∀ i ∈ is, i < 16447) :
    ∃ out, decodeHeaders cfg d (refFrame is) = .ok (d, out) ∧ List.Forall₂ (fun i x => d.headers[i]? = some x) is out := by
  obtain ⟨out, e1, f1⟩ := decodeLoop_known hs m is hp hi
  rw [hp.length_eq] at e1
  refine ⟨out, ?_, f1⟩
  have : (refFrame is).drop 8 = is.length :: is.flatMap refBytes := rfl
  simp only [decodeHeaders, this, readByte, bind, Except.bind, e1]

/-! ### New headers -/

/-- Every header that is not in the table is stored in it: there is no shortage of buffer and no search for novelty. -/
def Stores (cfg : Cfg) (h : Hdr) : Prop :=
  (cfg.deltaUsage = true → ¬ (cfg.isRequest = true ∧ cfg.maxSize < 10000)) ∧ (cfg.deltaUsage = false → h.1 ≠ b!":path")

theorem chooseNew_stores (order : Order) {cfg : Cfg} {st : Enc} {h : Hdr} (hs : Stores cfg h) (hl : st.size + h.2.length < cfg.maxSize) :
    (chooseNew order cfg st h.1 h.2).indexing = .incremental := by
  unfold chooseNew
  have hp : ¬ (!cfg.deltaUsage && h.1 == b!":path") = true := by
    intro hc
    simp only [Bool.and_eq_true, Bool.not_eq_true', beq_iff_eq] at hc
    exact hs.2 hc.1 hc.2
  rw [if_neg hp]
  cases hd : cfg.deltaUsage with
  | false =>
    simp only [Bool.false_eq_true, if_false, gt_iff_lt, Nat.not_lt_zero, if_pos hl]
  | true =>
    simp only [if_true]
    generalize bestLoop cfg.deltaType h.1 h.2 (order st.ticks st.table) 0 none = r
    obtain ⟨best, ref⟩ := r
    simp only
    split
    · rw [if_pos ⟨Or.inl (hs.1 hd), hl⟩]
    · simp only [if_pos hl]

/-- After a header: nothing is lost, and it is in the table. -/
theorem encodeHeader_stores (order : Order) {cfg : Cfg} {st st' : Enc} {h : Hdr} {out : List Nat} (hs : Stores cfg h)
    (hl : st.size + h.2.length < cfg.maxSize) (he : encodeHeader order cfg st h = (st', .ok out)) :
    st'.size ≤ st.size + h.2.length ∧ (Dict.get? (rows st'.table) (h.1 ++ h.2) ≠ none) ∧
      ∀ k x, Dict.get? (rows st.table) k = some x → Dict.get? (rows st'.table) k = some x := by
  unfold encodeHeader determine at he
  cases hg : Dict.get? st.table (h.1 ++ h.2) with
  | some e =>
    simp only [hg] at he
    simp only [if_true, Prod.mk.injEq] at he
    obtain ⟨rfl, _⟩ := he
    have hr : rows (Dict.set st.table (h.1 ++ h.2) { e with age := 0 }) = rows st.table := rows_touch hg rfl
    simp only [hr]
    refine ⟨by omega, ?_, fun k x hk => hk⟩
    rw [rows_get, hg]
    simp
  | none =>
    simp only [hg] at he
    have hk : (chooseNew order cfg st h.1 h.2).kind ≠ .indexed := by
      unfold chooseNew
      repeat' first
        | split
        | dsimp only
      all_goals simp
    rw [if_neg hk] at he
    have hi := chooseNew_stores order hs hl
    generalize chooseNew order cfg st h.1 h.2 = hr at he hi hk
    simp only [writeNew, applyIndexing, hi] at he
    have key : rows st'.table = Dict.set (rows st.table) (h.1 ++ h.2) (h, st.table.length) ∧ st'.size = st.size + h.2.length := by
      have hset : rows (Dict.set st.table (h.1 ++ h.2) { name := h.1, value := h.2, index := st.table.length }) =
        Dict.set (rows st.table) (h.1 ++ h.2) (h, st.table.length) := by rw [rows_set]; rfl
      split at he
      · cases he
      · rename_i st1 x hx
        simp only [Prod.mk.injEq] at he
        obtain ⟨rfl, _⟩ := he
        split at hx
        · unfold writeDelta at hx
          split at hx
          · cases hx
          · simp only at hx
            split at hx
            · cases hx
            · cases hx
              rename_i ref _ _ _
              obtain ⟨c1, c2, _⟩ := rows_countUsage { table := Dict.set st.table (h.1 ++ h.2) { name := h.1, value := h.2, index := st.table.length }, size := st.size + h.2.length, names := st.names, ticks := st.ticks + 1 } ref
              exact ⟨c1.trans hset, c2⟩
        · unfold writeLiteral at hx
          split at hx
          · cases hx
          · rename_i st2 y hy
            simp only [hi, reduceCtorEq, if_false] at hx
            cases hx
            unfold writeName at hy
            split at hy
            · simp only [Prod.mk.injEq] at hy
              obtain ⟨rfl, _⟩ := hy
              exact ⟨hset, rfl⟩
            · simp only at hy
              split at hy
              · cases hy
              · cases hy
                exact ⟨hset, rfl⟩
    rw [key.1, key.2]
    refine ⟨Int.le_refl _, ?_, fun k x hx => ?_⟩
    · rw [Dict.get?_set, if_pos rfl]
      simp
    · rw [Dict.get?_set]
      split
      · rename_i hk'
        rw [← hk', rows_get, hg] at hx
        cases hx
      · exact hx

theorem encodeLoop_stores (order : Order) {cfg : Cfg} (hs : List Hdr) : ∀ {st st' : Enc} {out : List Nat}, (∀ h ∈ hs, Stores cfg h) →
    st.size + ((hs.map fun h => h.2.length).sum : Nat) < cfg.maxSize → encodeLoop order cfg st hs = (st', .ok out) →
    (∀ h ∈ hs, Dict.get? (rows st'.table) (h.1 ++ h.2) ≠ none) ∧
      ∀ k x, Dict.get? (rows st.table) k = some x → Dict.get? (rows st'.table) k = some x := by
  induction hs with
  | nil => intro st st' out _ _ he; cases he; exact ⟨by simp, fun k x hx => hx⟩
  | cons h hs ih =>
    intro st st' out hst hl he
    simp only [List.map_cons, List.sum_cons] at hl
    push_cast at hl
    unfold encodeLoop at he
    split at he
    · cases he
    · rename_i st1 x hx
      split at he
      · cases he
      · rename_i st2 y hy
        cases he
        obtain ⟨z1, z2, z3⟩ := encodeHeader_stores order (hst h (by simp)) (by omega) hx
        obtain ⟨w1, w2⟩ := ih (fun g hg => hst g (by simp [hg])) (by omega) hy
        refine ⟨fun g hg => ?_, fun k x hk => w2 k x (z3 k x hk)⟩
        rcases List.mem_cons.1 hg with rfl | hg
        · obtain ⟨v, hv⟩ := Option.ne_none_iff_exists'.1 z2
          rw [w2 _ v hv]
          simp
        · exact w1 g hg

theorem encodeHeaders_stores (order : Order) {cfg : Cfg} {hs : List Hdr} {st st' : Enc} {f : List Nat} (hst : ∀ h ∈ hs, Stores cfg h)
    (hl : st.size + ((hs.map fun h => h.2.length).sum : Nat) < cfg.maxSize) (he : encodeHeaders order cfg st hs = (st', .ok f)) :
    (∀ h ∈ hs, Dict.get? (rows st'.table) (h.1 ++ h.2) ≠ none) ∧
      ∀ k x, Dict.get? (rows st.table) k = some x → Dict.get? (rows st'.table) k = some x := by
  unfold encodeHeaders at he
  simp only at he
  split at he
  · cases he
  · split at he
    · cases he
    · rename_i st1 x hx
      simp only [Prod.mk.injEq] at he
      obtain ⟨rfl, _⟩ := he
      have := encodeLoop_stores order hs hst (show (grow st).size + _ < _ from hl) hx
      rw [rows_grow] at this
      exact this

end Verif.HeaderDiff
