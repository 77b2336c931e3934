import Verif.HeaderDiff.Choice
/-
headerdiff: the tables of encoder and decoder, and how one header changes them.
-/
namespace Verif.HeaderDiff
open Verif

/-! ### What matters of the encoder's table -/

/-- An entry without what only the encoder uses. -/
def Entry.row (e : Entry) : Hdr × Nat := ((e.name, e.value), e.index)

/-- The table without what only the encoder uses. -/
def rows (t : Dict Str Entry) : Dict Str (Hdr × Nat) := t.map fun p => (p.1, p.2.row)

theorem rows_get (t : Dict Str Entry) (k : Str) : Dict.get? (rows t) k = (Dict.get? t k).map Entry.row := by
  induction t with
  | nil => rfl
  | cons p t ih =>
    obtain ⟨k', e⟩ := p
    change (if k' = k then some e.row else Dict.get? (rows t) k) = (if k' = k then some e else Dict.get? t k).map _
    split
    · rfl
    · exact ih

theorem rows_set (t : Dict Str Entry) (k : Str) (e : Entry) : rows (Dict.set t k e) = Dict.set (rows t) k e.row := by
  induction t with
  | nil => rfl
  | cons p t ih =>
    obtain ⟨k', e'⟩ := p
    change rows (if k' = k then (k', e) :: t else (k', e') :: Dict.set t k e) =
      (if k' = k then (k', e.row) :: rows t else (k', e'.row) :: Dict.set (rows t) k e.row)
    split
    · rfl
    · change (k', e'.row) :: rows (Dict.set t k e) = _
      rw [ih]

theorem rows_del (t : Dict Str Entry) (k : Str) : rows (Dict.del t k) = Dict.del (rows t) k := by
  induction t with
  | nil => rfl
  | cons p t ih =>
    obtain ⟨k', e'⟩ := p
    change rows (if k' = k then t else (k', e') :: Dict.del t k) = (if k' = k then rows t else (k', e'.row) :: Dict.del (rows t) k)
    split
    · rfl
    · change (k', e'.row) :: rows (Dict.del t k) = _
      rw [ih]

theorem rows_length (t : Dict Str Entry) : (rows t).length = t.length := by simp [rows]

theorem mem_rows {t : Dict Str Entry} {k : Str} {e : Entry} (h : (k, e) ∈ t) : (k, e.row) ∈ rows t :=
  List.mem_map.2 ⟨(k, e), h, rfl⟩

theorem set_same {β : Type} {d : Dict Str β} {k : Str} {v : β} (h : Dict.get? d k = some v) : Dict.set d k v = d := by
  induction d with
  | nil => cases h
  | cons p d ih =>
    obtain ⟨k', v'⟩ := p
    rw [Dict.get?_cons] at h
    change (if k' = k then (k', v) :: d else (k', v') :: Dict.set d k v) = _
    by_cases hk : k' = k
    · rw [if_pos hk] at h ⊢
      cases h
      rfl
    · rw [if_neg hk] at h ⊢
      rw [ih h]

theorem del_length {β : Type} {d : Dict Str β} {k : Str} {v : β} (h : Dict.get? d k = some v) :
    (Dict.del d k).length + 1 = d.length := by
  induction d with
  | nil => cases h
  | cons p d ih =>
    obtain ⟨k', v'⟩ := p
    rw [Dict.get?_cons] at h
    change (if k' = k then d else (k', v') :: Dict.del d k).length + 1 = _
    by_cases hk : k' = k
    · rw [if_pos hk]; rfl
    · rw [if_neg hk] at h ⊢
      rw [List.length_cons, ih h]
      rfl

/-- Changing an entry where only the encoder looks. -/
theorem rows_touch {t : Dict Str Entry} {k : Str} {e e' : Entry} (h : Dict.get? t k = some e) (hr : e'.row = e.row) :
    rows (Dict.set t k e') = rows t := by
  rw [rows_set, hr]
  exact set_same (by rw [rows_get, h]; rfl)

theorem rows_grow (st : Enc) : rows (grow st).table = rows st.table := by
  simp [rows, grow, Entry.row]

theorem rows_countUsage (st : Enc) (ref : Entry) : rows (countUsage st ref).table = rows st.table ∧
    (countUsage st ref).size = st.size ∧ (countUsage st ref).names = st.names := by
  unfold countUsage
  cases h : Dict.get? st.table ref.full with
  | none => exact ⟨rfl, rfl, rfl⟩
  | some e => exact ⟨rows_touch h rfl, rfl, rfl⟩

/-! ### The tables agree -/

/-- The rows of the encoder's table are the decoder's headers at their indices; the sizes agree. -/
structure SyncT (maxSize : Int) (rs : Dict Str (Hdr × Nat)) (size : Int) (hs : List Hdr) (dsize : Int) : Prop where
  wf : Dict.WF rs
  full : ∀ k h i, (k, (h, i)) ∈ rs → k = h.1 ++ h.2
  at_ : ∀ k h i, (k, (h, i)) ∈ rs → hs[i]? = some h
  inj : ∀ k h k' h' i, (k, (h, i)) ∈ rs → (k', (h', i)) ∈ rs → k = k'
  surj : ∀ i < hs.length, ∃ k h, (k, (h, i)) ∈ rs
  len : rs.length = hs.length
  size : size = dsize
  sum : dsize = ((hs.map fun h => h.2.length).sum : Nat)
  bound : dsize ≤ maxSize

/-- The numbers of the encoder's names are the positions of the decoder's. -/
structure SyncN (ns : Dict Str Nat) (ds : List Str) : Prop where
  wf : Dict.WF ns
  len : ns.length = ds.length
  at_ : ∀ n i, Dict.get? ns n = some i → ds[i]? = some n

theorem sum_set (hs : List Hdr) (i : Nat) (h old : Hdr) (hi : hs[i]? = some old) :
    ((((hs.set i h).map fun h => h.2.length).sum : Nat) : Int) =
      (((hs.map fun h => h.2.length).sum : Nat) : Int) + ((h.2.length : Int) - old.2.length) := by
  induction hs generalizing i with
  | nil => simp at hi
  | cons x hs ih =>
    cases i with
    | zero =>
      simp only [List.getElem?_cons_zero, Option.some.injEq] at hi
      subst hi
      simp
      omega
    | succ i =>
      have := ih i (by simpa using hi)
      simp only [List.set_cons_succ, List.map_cons, List.sum_cons] at this ⊢
      push_cast at this ⊢
      omega

/-- A new row at the end. -/
theorem SyncT.push {m : Int} {rs : Dict Str (Hdr × Nat)} {size dsize : Int} {hs : List Hdr} (hT : SyncT m rs size hs dsize)
    (h : Hdr) (hnew : Dict.get? rs (h.1 ++ h.2) = none) (hfit : size + h.2.length < m) :
    SyncT m (Dict.set rs (h.1 ++ h.2) (h, rs.length)) (size + h.2.length) (hs ++ [h]) (dsize + h.2.length) := by
  have hk := Dict.get?_none.1 hnew
  have hset : Dict.set rs (h.1 ++ h.2) (h, rs.length) = rs ++ [(h.1 ++ h.2, (h, rs.length))] := Dict.set_new hk _
  have hidx : ∀ k h' i, (k, (h', i)) ∈ rs → i < hs.length := fun k h' i hm =>
    (List.getElem?_eq_some_iff.1 (hT.at_ k h' i hm)).1
  refine ⟨hT.wf.set _ _, ?_, ?_, ?_, ?_, ?_, ?_, ?_, ?_⟩
  · intro k h' i hm
    rw [hset, List.mem_append, List.mem_singleton] at hm
    rcases hm with hm | hm
    · exact hT.full k h' i hm
    · cases hm; rfl
  · intro k h' i hm
    rw [hset, List.mem_append, List.mem_singleton] at hm
    rcases hm with hm | hm
    · rw [List.getElem?_append_left (hidx k h' i hm)]
      exact hT.at_ k h' i hm
    · cases hm
      rw [hT.len]
      simp
  · intro k h1 k' h2 i hm hm'
    rw [hset, List.mem_append, List.mem_singleton] at hm hm'
    rcases hm with hm | hm <;> rcases hm' with hm' | hm'
    · exact hT.inj k h1 k' h2 i hm hm'
    · cases hm'
      have := hidx _ _ _ hm
      rw [hT.len] at this
      omega
    · cases hm
      have := hidx _ _ _ hm'
      rw [hT.len] at this
      omega
    · cases hm; cases hm'; rfl
  · intro i hi
    rw [hset]
    rw [List.length_append, List.length_singleton] at hi
    by_cases hlt : i < hs.length
    · obtain ⟨k, h', hm⟩ := hT.surj i hlt
      exact ⟨k, h', List.mem_append_left _ hm⟩
    · have : i = rs.length := by rw [hT.len]; omega
      exact ⟨_, _, List.mem_append_right _ (by rw [this]; exact List.mem_singleton.2 rfl)⟩
  · rw [hset]; simp [hT.len]
  · rw [hT.size]
  · rw [List.map_append, List.sum_append, hT.sum]
    simp
  · rw [← hT.size]; omega

/-- A row replaced. -/
theorem SyncT.replace {m : Int} {rs : Dict Str (Hdr × Nat)} {size dsize : Int} {hs : List Hdr} (hT : SyncT m rs size hs dsize)
    (h : Hdr) (hnew : Dict.get? rs (h.1 ++ h.2) = none) (kr : Str) (old : Hdr) (i : Nat) (hold : (kr, (old, i)) ∈ rs)
    (hfit : size - old.2.length + h.2.length < m) :
    kr = old.1 ++ old.2 ∧ hs[i]? = some old ∧
    SyncT m (Dict.set (Dict.del rs kr) (h.1 ++ h.2) (h, i)) (size - old.2.length + h.2.length) (hs.set i h)
      (dsize + ((h.2.length : Int) - old.2.length)) := by
  have hget := (Dict.mem_iff_get? hT.wf).1 hold
  have hi := hT.at_ kr old i hold
  have hilt := (List.getElem?_eq_some_iff.1 hi).1
  have hwf := hT.wf.del kr
  have hne : kr ≠ h.1 ++ h.2 := by
    intro hc
    rw [hc, hnew] at hget
    cases hget
  have hk : h.1 ++ h.2 ∉ Dict.keys (Dict.del rs kr) := by
    apply Dict.get?_none.1
    rw [Dict.get?_del hT.wf, if_neg hne]
    exact hnew
  have hset : Dict.set (Dict.del rs kr) (h.1 ++ h.2) (h, i) = Dict.del rs kr ++ [(h.1 ++ h.2, (h, i))] := Dict.set_new hk _
  have hmem : ∀ k x, (k, x) ∈ Dict.del rs kr ↔ k ≠ kr ∧ (k, x) ∈ rs := by
    intro k x
    rw [Dict.mem_iff_get? hwf, Dict.get?_del hT.wf, Dict.mem_iff_get? hT.wf]
    by_cases hc : kr = k
    · rw [if_pos hc]; simp [hc]
    · rw [if_neg hc]
      exact ⟨fun hh => ⟨fun e => hc e.symm, hh⟩, fun hh => hh.2⟩
  have hother : ∀ k h' j, k ≠ kr → (k, (h', j)) ∈ rs → j ≠ i := by
    intro k h' j hk hm hc
    subst hc
    exact hk (hT.inj _ _ _ _ _ hm hold)
  refine ⟨hT.full kr old i hold, hi, hwf.set _ _, ?_, ?_, ?_, ?_, ?_, ?_, ?_, ?_⟩
  · intro k h' j hm
    rw [hset, List.mem_append, List.mem_singleton] at hm
    rcases hm with hm | hm
    · exact hT.full k h' j ((hmem _ _).1 hm).2
    · cases hm; rfl
  · intro k h' j hm
    rw [hset, List.mem_append, List.mem_singleton] at hm
    rcases hm with hm | hm
    · obtain ⟨h1, h2⟩ := (hmem _ _).1 hm
      rw [List.getElem?_set_ne (hother _ _ _ h1 h2).symm]
      exact hT.at_ k h' j h2
    · cases hm
      rw [List.getElem?_set_self hilt]
  · intro k h1 k' h2 j hm hm'
    rw [hset, List.mem_append, List.mem_singleton] at hm hm'
    rcases hm with hm | hm <;> rcases hm' with hm' | hm'
    · exact hT.inj k h1 k' h2 j ((hmem _ _).1 hm).2 ((hmem _ _).1 hm').2
    · cases hm'
      obtain ⟨g1, g2⟩ := (hmem _ _).1 hm
      exact absurd rfl (hother _ _ _ g1 g2)
    · cases hm
      obtain ⟨g1, g2⟩ := (hmem _ _).1 hm'
      exact absurd rfl (hother _ _ _ g1 g2)
    · cases hm; cases hm'; rfl
  · intro j hj
    rw [hset]
    rw [List.length_set] at hj
    by_cases hc : j = i
    · exact ⟨_, _, List.mem_append_right _ (by rw [hc]; exact List.mem_singleton.2 rfl)⟩
    · obtain ⟨k, h', hm⟩ := hT.surj j hj
      refine ⟨k, h', List.mem_append_left _ ((hmem _ _).2 ⟨?_, hm⟩)⟩
      intro hk
      subst hk
      have := (Dict.mem_iff_get? hT.wf).1 hm
      rw [hget] at this
      cases this
      exact hc rfl
  · rw [hset, List.length_append, List.length_singleton, List.length_set, del_length hget, hT.len]
  · rw [hT.size]; omega
  · have := sum_set hs i h old hi
    rw [hT.sum]
    exact this.symm
  · have := hT.size; omega

theorem SyncN.push {ns : Dict Str Nat} {ds : List Str} (hN : SyncN ns ds) (n : Str) (hnew : Dict.get? ns n = none) :
    SyncN (Dict.set ns n ns.length) (ds ++ [n]) := by
  have hset : Dict.set ns n ns.length = ns ++ [(n, ns.length)] := Dict.set_new (Dict.get?_none.1 hnew) _
  refine ⟨hN.wf.set _ _, by rw [hset]; simp [hN.len], fun x i hx => ?_⟩
  rw [Dict.get?_set] at hx
  by_cases hc : n = x
  · rw [if_pos hc] at hx
    cases hx
    rw [← hc, hN.len]
    simp
  · rw [if_neg hc] at hx
    have := hN.at_ x i hx
    rw [List.getElem?_append_left (List.getElem?_eq_some_iff.1 this).1]
    exact this

/-! ### First bytes -/

/-- The bits of the first byte for an indexing mode, and the size of its prefix. -/
def flag : Indexing → Nat
  | .none => 0
  | .incremental => 0x20
  | .substitution => 0x30

/-- The size of the prefix. -/
def bitsFor : Indexing → Nat
  | .none => 5
  | _ => 4

theorem bitsFor_eq (i : Indexing) : (if i ≠ .none then 4 else 5) = bitsFor i := by cases i <;> rfl

theorem bitsFor_ok (i : Indexing) : bitsFor i = 4 ∨ bitsFor i = 5 ∨ bitsFor i = 6 ∨ bitsFor i = 8 := by cases i <;> simp [bitsFor]

theorem flag_ok (i : Indexing) : flag i < 256 ∧ flag i &&& (2 ^ bitsFor i - 1) = 0 ∧
    flag i ||| 0x40 < 256 ∧ (flag i ||| 0x40) &&& (2 ^ bitsFor i - 1) = 0 := by cases i <;> decide

theorem first_literal (i : Indexing) : ∀ low < 2 ^ bitsFor i, (flag i ||| low) &&& 0x80 = 0 ∧ (flag i ||| low) &&& 0x40 = 0 ∧
    ((flag i ||| low) &&& 0x30 == 0x20) = (i == .incremental) ∧ ((flag i ||| low) &&& 0x30 == 0x30) = (i == .substitution) := by
  cases i <;> decide +kernel

theorem first_delta (i : Indexing) : ∀ low < 2 ^ bitsFor i, ((flag i ||| 0x40) ||| low) &&& 0x80 = 0 ∧
    ((flag i ||| 0x40) ||| low) &&& 0x40 ≠ 0 ∧
    (((flag i ||| 0x40) ||| low) &&& 0x30 == 0x20) = (i == .incremental) ∧
    (((flag i ||| 0x40) ||| low) &&& 0x30 == 0x30) = (i == .substitution) := by
  cases i <;> decide +kernel

theorem prefixBits_eq (i : Indexing) : (if (i == .incremental) || (i == .substitution) then 4 else 5) = bitsFor i := by
  cases i <;> rfl

theorem first_indexed : ∀ i < 64, 0x80 ||| i < 256 ∧ (0x80 ||| i) &&& 0x80 ≠ 0 ∧ (0x80 ||| i) &&& 0x40 = 0 ∧ (0x80 ||| i) &&& 0x3f = i := by
  decide +kernel

/-! ### One header -/

/-- Encoder and decoder agree. -/
structure Sync (cfg : Cfg) (st : Enc) (d : Dec) : Prop where
  table : SyncT cfg.maxSize (rows st.table) st.size d.headers d.size
  names : SyncN st.names d.names

/-- A decoder that knows only headers from `S`. -/
def From (S : Hdr → Prop) (d : Dec) : Prop := ∀ h ∈ d.headers, S h

theorem item_some {α : Type} {l : List α} {i : Nat} {a : α} (h : l[i]? = some a) : item l i = .ok a := by
  simp [item, h]

theorem writeIndexed_spec {cfg : Cfg} {d : Dec} {e : Entry} {out : List Nat} (h : writeIndexed e = .ok out)
    (hat : d.headers[e.index]? = some (e.name, e.value)) (hb : d.size ≤ cfg.maxSize) (rest : List Nat) :
    decodeHeader cfg d (out ++ rest) = .ok (d, (e.name, e.value), rest) := by
  have hsz : ¬ d.size > cfg.maxSize := by omega
  unfold writeIndexed at h
  by_cases hi : e.index < 64
  · rw [if_pos hi] at h
    obtain ⟨h1, h2, h3, h4⟩ := first_indexed _ hi
    simp only [packB, if_pos h1] at h
    cases h
    simp only [decodeHeader, if_neg hsz, List.cons_append, List.nil_append, readByte, bind, Except.bind, if_pos h2,
      decodeIndexed]
    simp only [h3, ne_eq, not_true_eq_false, if_false, h4, item_some hat]
  · rw [if_neg hi] at h
    by_cases hbig : 16383 ≤ e.index - 64
    · rw [integer_long_error 0xc0 _ hbig] at h
      cases h
    · obtain ⟨hi', lo, h1, _, hw, hr⟩ := integer_long 0xc0 (e.index - 64) (by omega) (by decide) (by omega)
      rw [hw] at h
      cases h
      obtain ⟨_, _, h3, h4⟩ := high_byte _ h1
      simp only [decodeHeader, if_neg hsz, List.cons_append, List.nil_append, readByte, bind, Except.bind, if_pos h3,
        decodeIndexed]
      rw [if_pos h4]
      simp only [hr, show e.index - 64 + 64 = e.index by omega, item_some hat]

/-- What the indexing mode does on both sides. -/
theorem indexing_spec {cfg : Cfg} {st : Enc} {d : Dec} {name value : Str} {hr : HR} (hs : Sync cfg st d)
    (hc : Chosen cfg st name value hr) (hnew : Dict.get? st.table (name ++ value) = none) :
    ∃ st1, applyIndexing st name value hr = .ok (st1, flag hr.indexing) ∧ st1.names = st.names ∧
      ∀ ref, (hr.indexing = .substitution → ∃ e, hr.reference = some e ∧ ref = e.index) → ∀ ns,
      ∃ d1, decodeIndexing { d with names := ns } (hr.indexing == .substitution) (hr.indexing == .incremental) ref (name, value) = .ok d1 ∧
        d1.names = ns ∧ SyncT cfg.maxSize (rows st1.table) st1.size d1.headers d1.size ∧
        ∀ S : Hdr → Prop, From S d → S (name, value) → From S d1 := by
  have hnew' : Dict.get? (rows st.table) ((name, value).1 ++ (name, value).2) = none := by rw [rows_get, hnew]; rfl
  unfold applyIndexing decodeIndexing
  cases hi : hr.indexing with
  | none =>
    exact ⟨st, rfl, rfl, fun ref _ ns => ⟨{ d with names := ns }, rfl, rfl, hs.table, fun S h _ => h⟩⟩
  | incremental =>
    refine ⟨_, rfl, rfl, fun ref _ ns => ⟨_, rfl, rfl, ?_, ?_⟩⟩
    · have := hs.table.push (name, value) hnew' (hc.inc hi)
      rw [rows_length] at this
      rw [rows_set]
      exact this
    · intro S h1 h2 h hm
      rcases List.mem_append.1 hm with hm | hm
      · exact h1 h hm
      · rw [List.mem_singleton.1 hm]; exact h2
  | substitution =>
    obtain ⟨k, e, hm, href, hlt⟩ := hc.sub hi
    simp only [href]
    obtain ⟨hk, hat, hT⟩ := hs.table.replace (name, value) hnew' k (e.name, e.value) e.index (mem_rows hm) hlt
    refine ⟨_, rfl, rfl, fun ref hre ns => ?_⟩
    obtain ⟨e', he', rfl⟩ := hre trivial
    cases he'
    refine ⟨_, by simp only [beq_self_eq_true, if_true, item_some hat, bind, Except.bind]; rfl, rfl, ?_, ?_⟩
    · rw [rows_set, rows_del, show e.full = k from hk.symm]
      exact hT
    · intro S h1 h2 h hm
      rcases List.mem_or_eq_of_mem_set hm with hm | rfl
      · exact h1 h hm
      · exact h2

/-- The name of a literal. -/
theorem writeName_spec {cfg : Cfg} (hco : CoderOk cfg) {st st' : Enc} {d : Dec} {i : Indexing} {name : Str} {out : List Nat}
    (hN : SyncN st.names d.names) (hb : ∀ c ∈ name, c < 256)
    (h : writeName cfg st (flag i) (bitsFor i) name = (st', .ok out)) :
    st'.table = st.table ∧ st'.size = st.size ∧ ∃ b0 low out', out = b0 :: out' ∧ low < 2 ^ bitsFor i ∧ b0 = flag i ||| low ∧
      ∃ ns, SyncN st'.names ns ∧
      ∀ rest, decodeName cfg d b0 (bitsFor i) (out' ++ rest) = .ok ({ d with names := ns }, name, rest) := by
  obtain ⟨hf1, hf2, _⟩ := flag_ok i
  unfold writeName at h
  cases hg : Dict.get? st.names name with
  | some k =>
    rw [hg] at h
    obtain ⟨low, bytes, hlow, hw, _, hr⟩ := integer_short (bitsFor i) (flag i) (k + 1) (bitsFor_ok i) hf1 hf2
    simp only [hw] at h
    cases h
    refine ⟨rfl, rfl, _, low, bytes, rfl, hlow, rfl, d.names, hN, fun rest => ?_⟩
    simp only [decodeName, hr, bind, Except.bind, Nat.add_sub_cancel, item_some (hN.at_ _ _ hg)]
    simp
  | none =>
    rw [hg] at h
    obtain ⟨low, bytes, hlow, hw, _, hr⟩ := integer_short (bitsFor i) (flag i) 0 (bitsFor_ok i) hf1 hf2
    cases hstr : writeString cfg name with
    | error e => simp only [hw, hstr, bind, Except.bind, Prod.mk.injEq, reduceCtorEq, and_false] at h
    | ok y =>
      simp only [hw, hstr, bind, Except.bind, Prod.mk.injEq, Except.ok.injEq] at h
      obtain ⟨rfl, rfl⟩ := h
      refine ⟨rfl, rfl, _, low, bytes ++ y, rfl, hlow, rfl, d.names ++ [name], hN.push name hg, fun rest => ?_⟩
      simp only [decodeName, List.append_assoc, hr, bind, Except.bind, if_true, string_spec hco hb hstr]

/-- A header that is not in the table. -/
theorem writeNew_spec {cfg : Cfg} (hco : CoderOk cfg) {st st' : Enc} {d : Dec} {name value : Str} {hr : HR} {out : List Nat}
    (hs : Sync cfg st d) (hc : Chosen cfg st name value hr) (hnew : Dict.get? st.table (name ++ value) = none)
    (hbn : ∀ c ∈ name, c < 256) (hbv : ∀ c ∈ value, c < 256) (h : writeNew cfg st name value hr = (st', .ok out)) :
    ∃ d', Sync cfg st' d' ∧ (∀ rest, decodeHeader cfg d (out ++ rest) = .ok (d', (name, value), rest)) ∧
      ∀ S : Hdr → Prop, From S d → S (name, value) → From S d' := by
  have hsz : ¬ d.size > cfg.maxSize := by have := hs.table.bound; omega
  obtain ⟨st1, ha, hn1, hdec⟩ := indexing_spec hs hc hnew
  unfold writeNew at h
  simp only [ha, bitsFor_eq] at h
  by_cases hdelta : (cfg.deltaUsage && hr.kind == .delta) = true
  · -- delta
    simp only [if_pos hdelta] at h
    have hkind : hr.kind = .delta := by
      simp only [Bool.and_eq_true, beq_iff_eq] at hdelta
      exact hdelta.2
    obtain ⟨_, k, e, hm, href, hu, hpl, _, _⟩ := hc.delta hkind
    have hat := hs.table.at_ k _ _ (mem_rows hm)
    change d.headers[e.index]? = some (e.name, e.value) at hat
    obtain ⟨_, _, hf3, hf4⟩ := flag_ok hr.indexing
    obtain ⟨low, bytes, hlow, hw, _, hrd⟩ := integer_short (bitsFor hr.indexing) (flag hr.indexing ||| 0x40) e.index
      (bitsFor_ok _) hf3 hf4
    obtain ⟨pb, hpw, _, hpr⟩ := integer_zero hr.prefixLength
    simp only [writeDelta, href, hw, hpw, bind, Except.bind] at h
    cases hstr : writeString cfg (value.drop hr.prefixLength) with
    | error e => simp only [hstr, Prod.mk.injEq, reduceCtorEq, and_false] at h
    | ok y =>
      simp only [hstr, Prod.mk.injEq, Except.ok.injEq] at h
      obtain ⟨rfl, rfl⟩ := h
      obtain ⟨d1, hd1, hdn, hT, hfrom⟩ := hdec e.index (fun _ => ⟨e, href, rfl⟩) d.names
      obtain ⟨g1, g2, g3, g4⟩ := first_delta hr.indexing low hlow
      obtain ⟨r1, r2, r3⟩ := rows_countUsage st1 e
      refine ⟨d1, ⟨by rw [r1, r2]; exact hT, by rw [r3, hn1, hdn]; exact hs.names⟩, fun rest => ?_, hfrom⟩
      have hstr' := string_spec hco (s := value.drop hr.prefixLength) (fun c hcm => hbv c (List.mem_of_mem_drop hcm)) hstr
      have hval : e.value.take hr.prefixLength ++ value.drop hr.prefixLength = value := by
        rw [hpl]; exact shared_join _ _ _
      simp only [decodeHeader, if_neg hsz, List.cons_append, List.append_assoc, readByte, bind, Except.bind]
      rw [if_neg (by simp [g1])]
      unfold decodeNew
      simp only [g3, g4, prefixBits_eq]
      rw [if_pos g2]
      simp only [hrd, hpr, bind, Except.bind, item_some hat, hstr', hval, hu.1]
      have : ({ d with names := d.names } : Dec) = d := rfl
      rw [this] at hd1
      simp only [hd1]
  · -- literal
    simp only [if_neg hdelta] at h
    cases hwn : writeName cfg st1 (flag hr.indexing) (bitsFor hr.indexing) name with
    | mk st2 o =>
    cases o with
    | error e => simp only [writeLiteral, hwn, Prod.mk.injEq, reduceCtorEq, and_false] at h
    | ok x =>
      obtain ⟨t1, t2, b0, low, out', rfl, hlow, hb0, ns, hN, hdn⟩ := writeName_spec (d := d) hco (by rw [hn1]; exact hs.names) hbn hwn
      obtain ⟨g1, g2, g3, g4⟩ := first_literal hr.indexing low hlow
      rw [← hb0] at g1 g2 g3 g4
      -- the index of the replaced header
      have hmid : ∃ y st3, writeLiteral cfg st1 (flag hr.indexing) (bitsFor hr.indexing) name hr = (st3, .ok (b0 :: out' ++ y)) ∧ st3 = st2 ∧
          ∃ ref, (hr.indexing = .substitution → ∃ e, hr.reference = some e ∧ ref = e.index) ∧
          ∀ rest, (if (hr.indexing == .substitution) = true then readInteger b0 0 (y ++ rest) else .ok (0, y ++ rest)) = .ok (ref, rest) := by
        unfold writeLiteral
        simp only [hwn]
        by_cases hsub : hr.indexing = .substitution
        · obtain ⟨k, e, hm, href, _⟩ := hc.sub hsub
          obtain ⟨pb, hpw, _, hpr⟩ := integer_zero e.index
          refine ⟨pb, st2, ?_, rfl, e.index, fun _ => ⟨e, href, rfl⟩, fun rest => ?_⟩
          · rw [if_pos hsub]
            simp only [href, hpw, bind, Except.bind]
          · rw [if_pos (by simpa using hsub), hpr]
        · refine ⟨[], st2, ?_, rfl, 0, fun hh => absurd hh hsub, fun rest => ?_⟩
          · rw [if_neg hsub, List.append_nil]
          · rw [if_neg (by simpa using hsub)]
            rfl
      obtain ⟨y, st3, hwl, rfl, ref, href, hread⟩ := hmid
      simp only [hwl] at h
      cases hstr : writeString cfg value with
      | error e => simp only [hstr, bind, Except.bind, Prod.mk.injEq, reduceCtorEq, and_false] at h
      | ok z =>
        simp only [hstr, bind, Except.bind, Prod.mk.injEq, Except.ok.injEq] at h
        obtain ⟨rfl, rfl⟩ := h
        obtain ⟨d1, hd1, hdns, hT, hfrom⟩ := hdec ref href ns
        refine ⟨d1, ⟨by rw [t1, t2]; exact hT, by rw [hdns]; exact hN⟩, fun rest => ?_, hfrom⟩
        have hstr' := string_spec hco hbv hstr
        simp only [decodeHeader, if_neg hsz, List.cons_append, List.append_assoc, readByte, bind, Except.bind]
        rw [if_neg (by simp [g1])]
        unfold decodeNew
        simp only [g3, g4, prefixBits_eq]
        rw [if_neg (by simp [g2])]
        simp only [hdn, bind, Except.bind]
        have hread' := hread (z ++ rest)
        by_cases hsub : (hr.indexing == .substitution) = true
        · rw [if_pos hsub] at hread' ⊢
          simp only [hread', hstr', hd1]
        · rw [if_neg hsub] at hread' ⊢
          injection hread' with hread'
          injection hread' with e1 e2
          simp only [e2, hstr', e1, hd1]

/-- One header: the decoder follows, and the header it returns has the same name and value when joined. -/
theorem encodeHeader_spec {cfg : Cfg} (hco : CoderOk cfg) {order : Order} (ho : OrderOk order) {st st' : Enc} {d : Dec} {h : Hdr}
    {out : List Nat} (hs : Sync cfg st d) (hbn : ∀ c ∈ h.1, c < 256) (hbv : ∀ c ∈ h.2, c < 256)
    (he : encodeHeader order cfg st h = (st', .ok out)) :
    ∃ d' h', Sync cfg st' d' ∧ (∀ rest, decodeHeader cfg d (out ++ rest) = .ok (d', h', rest)) ∧ h'.1 ++ h'.2 = h.1 ++ h.2 ∧
      (h' = h ∨ h' ∈ d.headers) ∧ ∀ S : Hdr → Prop, From S d → S h → From S d' := by
  obtain ⟨name, value⟩ := h
  unfold encodeHeader determine at he
  cases hg : Dict.get? st.table (name ++ value) with
  | some e =>
    simp only [hg] at he
    simp only [if_true, Prod.mk.injEq] at he
    obtain ⟨rfl, hw⟩ := he
    have hrow := (Dict.mem_iff_get? hs.table.wf).2 (show Dict.get? (rows st.table) (name ++ value) = some e.row by rw [rows_get, hg]; rfl)
    have hat := hs.table.at_ _ _ _ hrow
    have hfull := hs.table.full _ _ _ hrow
    refine ⟨d, (e.name, e.value), ⟨?_, hs.names⟩, fun rest => ?_, hfull.symm, Or.inr (List.mem_of_getElem? hat), fun S h1 _ => h1⟩
    · change SyncT cfg.maxSize (rows (Dict.set st.table (name ++ value) _)) st.size d.headers d.size
      rw [rows_touch (e' := { e with age := 0 }) hg rfl]
      exact hs.table
    · exact writeIndexed_spec (cfg := cfg) (e := { e with age := 0 }) hw hat hs.table.bound rest
  | none =>
    simp only [hg] at he
    have hc := chooseNew_spec ho cfg st name value
    rw [if_neg hc.kind] at he
    have hc' : Chosen cfg { st with ticks := st.ticks + 1 } name value (chooseNew order cfg st name value) :=
      ⟨hc.kind, hc.delta, hc.sub, hc.inc⟩
    obtain ⟨d', h1, h2, h3⟩ := writeNew_spec hco (d := d) (st := { st with ticks := st.ticks + 1 }) ⟨hs.table, hs.names⟩ hc' hg hbn hbv he
    exact ⟨d', _, h1, h2, rfl, Or.inl rfl, h3⟩

end Verif.HeaderDiff
