import Verif.HeaderDiff.Sync
import Verif.HeaderDiff.Processor
import Verif.Lib.Lemmas
import Verif.Lib.Run
import Mathlib.Data.List.Forall2
/-
headerdiff: messages and sessions.
-/
namespace Verif.HeaderDiff
open Verif Verif.Lib.Spec

/-- A header made of bytes. -/
def Bytes (h : Hdr) : Prop := (∀ c ∈ h.1, c < 256) ∧ ∀ c ∈ h.2, c < 256

/-- A decoded header: as the one sent when name and value are joined, and one of those in `S`. -/
def Like (S : Hdr → Prop) (h h' : Hdr) : Prop := h'.1 ++ h'.2 = h.1 ++ h.2 ∧ S h'

theorem sync_grow {cfg : Cfg} {st : Enc} {d : Dec} (h : Sync cfg st d) : Sync cfg (grow st) d :=
  ⟨by rw [rows_grow]; exact h.table, h.names⟩

theorem encodeLoop_spec {cfg : Cfg} (hco : CoderOk cfg) {order : Order} (ho : OrderOk order) (S : Hdr → Prop) (hs : List Hdr) :
    ∀ {st st' : Enc} {d : Dec} {out : List Nat}, Sync cfg st d → From S d → (∀ h ∈ hs, Bytes h ∧ S h) →
    encodeLoop order cfg st hs = (st', .ok out) →
    ∃ d' hs', Sync cfg st' d' ∧ From S d' ∧ (∀ rest, decodeLoop cfg hs.length d (out ++ rest) = .ok (d', hs')) ∧
      List.Forall₂ (Like S) hs hs' := by
  induction hs with
  | nil =>
    intro st st' d out hsy hf _ he
    simp only [encodeLoop, Prod.mk.injEq, Except.ok.injEq] at he
    obtain ⟨rfl, rfl⟩ := he
    exact ⟨d, [], hsy, hf, fun rest => rfl, .nil⟩
  | cons h hs ih =>
    intro st st' d out hsy hf hb he
    unfold encodeLoop at he
    cases h1 : encodeHeader order cfg st h with
    | mk st1 o1 =>
    rw [h1] at he
    cases o1 with
    | error e => simp at he
    | ok x =>
      simp only at he
      cases h2 : encodeLoop order cfg st1 hs with
      | mk st2 o2 =>
      rw [h2] at he
      cases o2 with
      | error e => simp at he
      | ok y =>
        simp only [Prod.mk.injEq, Except.ok.injEq] at he
        obtain ⟨rfl, rfl⟩ := he
        obtain ⟨⟨hbn, hbv⟩, hS⟩ := hb h (by simp)
        obtain ⟨d1, h', hsy1, hd1, hj, hor, hfrom⟩ := encodeHeader_spec hco ho hsy hbn hbv h1
        have hf1 := hfrom S hf hS
        obtain ⟨d2, hs', hsy2, hf2, hd2, hall⟩ := ih hsy1 hf1 (fun x hx => hb x (by simp [hx])) h2
        refine ⟨d2, h' :: hs', hsy2, hf2, fun rest => ?_, .cons ⟨hj, ?_⟩ hall⟩
        · simp only [List.length_cons, decodeLoop, List.append_assoc, hd1, bind, Except.bind, hd2]
        · rcases hor with rfl | hm
          · exact hS
          · exact hf _ hm

theorem frame_spec {data f : List Nat} (h : frame data = .ok f) : f.drop 8 = data ∧ data.length < 65536 ∧ f.length = data.length + 8 := by
  unfold frame packH packB packL at h
  by_cases hl : data.length < 65536
  · simp only [if_pos hl, bind, Except.bind, Nat.zero_lt_succ, if_true] at h
    cases h
    exact ⟨rfl, hl, by simp⟩
  · simp only [if_neg hl, bind, Except.bind] at h
    cases h

theorem encodeHeaders_spec {cfg : Cfg} (hco : CoderOk cfg) {order : Order} (ho : OrderOk order) (S : Hdr → Prop) (hs : List Hdr)
    {st st' : Enc} {d : Dec} {f : List Nat} (hsy : Sync cfg st d) (hf : From S d) (hb : ∀ h ∈ hs, Bytes h ∧ S h)
    (he : encodeHeaders order cfg st hs = (st', .ok f)) :
    ∃ d' hs', Sync cfg st' d' ∧ From S d' ∧ decodeHeaders cfg d f = .ok (d', hs') ∧ List.Forall₂ (Like S) hs hs' := by
  unfold encodeHeaders packB at he
  by_cases hl : hs.length < 256
  · simp only [if_pos hl] at he
    cases h1 : encodeLoop order cfg (grow st) hs with
    | mk st1 o1 =>
    rw [h1] at he
    cases o1 with
    | error e => simp at he
    | ok x =>
      simp only [Prod.mk.injEq] at he
      obtain ⟨rfl, hfr⟩ := he
      obtain ⟨hdrop, _⟩ := frame_spec hfr
      obtain ⟨d', hs', h2, h3, h4, h5⟩ := encodeLoop_spec hco ho S hs (sync_grow hsy) hf hb h1
      refine ⟨d', hs', h2, h3, ?_, h5⟩
      have := h4 []
      rw [List.append_nil] at this
      simp only [decodeHeaders, hdrop, List.cons_append, List.nil_append, readByte, bind, Except.bind, this]
  · simp only [if_neg hl, Prod.mk.injEq, reduceCtorEq, and_false] at he

theorem encodeAll_spec {cfg : Cfg} (hco : CoderOk cfg) {order : Order} (ho : OrderOk order) (S : Hdr → Prop) (ms : List (List Hdr)) :
    ∀ {st st' : Enc} {d : Dec} {fs : List (List Nat)}, Sync cfg st d → From S d → (∀ m ∈ ms, ∀ h ∈ m, Bytes h ∧ S h) →
    encodeAll order cfg st ms = (st', .ok fs) →
    ∃ d' outs, Sync cfg st' d' ∧ From S d' ∧ decodeAll cfg d fs = .ok (d', outs) ∧ List.Forall₂ (List.Forall₂ (Like S)) ms outs := by
  induction ms with
  | nil =>
    intro st st' d fs hsy hf _ he
    simp only [encodeAll, Prod.mk.injEq, Except.ok.injEq] at he
    obtain ⟨rfl, rfl⟩ := he
    exact ⟨d, [], hsy, hf, rfl, .nil⟩
  | cons m ms ih =>
    intro st st' d fs hsy hf hb he
    unfold encodeAll at he
    cases h1 : encodeHeaders order cfg st m with
    | mk st1 o1 =>
    rw [h1] at he
    cases o1 with
    | error e => simp at he
    | ok x =>
      simp only at he
      cases h2 : encodeAll order cfg st1 ms with
      | mk st2 o2 =>
      rw [h2] at he
      cases o2 with
      | error e => simp at he
      | ok y =>
        simp only [Prod.mk.injEq, Except.ok.injEq] at he
        obtain ⟨rfl, rfl⟩ := he
        obtain ⟨d1, hs', hsy1, hf1, hd1, hall1⟩ := encodeHeaders_spec hco ho S m hsy hf (hb m (by simp)) h1
        obtain ⟨d2, outs, hsy2, hf2, hd2, hall2⟩ := ih hsy1 hf1 (fun x hx => hb x (by simp [hx])) h2
        refine ⟨d2, hs' :: outs, hsy2, hf2, ?_, .cons hall1 hall2⟩
        simp only [decodeAll, hd1, hd2, bind, Except.bind]

theorem numberNames_spec (ns : List Str) : ∀ (d : Dict Str Nat) (ds : List Str), SyncN d ds → (ds ++ ns).Nodup →
    (∀ n, Dict.has d n = true → n ∈ ds) → SyncN (numberNames ns ds.length d) (ds ++ ns) := by
  induction ns with
  | nil => intro d ds h _ _; simpa [numberNames] using h
  | cons n ns ih =>
    intro d ds h hnd hsub
    have hn : n ∉ ds := fun hc => (List.nodup_append.1 hnd).2.2 n hc n (by simp) rfl
    have hget : Dict.get? d n = none := by
      cases hg : Dict.get? d n with
      | none => rfl
      | some v => exact absurd (hsub n (by simp [Dict.has, hg])) hn
    have hp := h.push n hget
    unfold numberNames
    have := ih (Dict.set d n ds.length) (ds ++ [n]) (by rw [← h.len]; exact hp) (by simpa using hnd) (by
      intro x hx
      rw [List.mem_append, List.mem_singleton]
      by_cases hc : n = x
      · exact Or.inr hc.symm
      · left
        apply hsub
        simpa [Dict.has, Dict.get?_set, hc] using hx)
    simpa using this

theorem registered_nodup (r : Bool) : (registered r).Nodup := by cases r <;> decide +kernel

/-- A new codec: both sides agree. -/
theorem init_sync (cfg : Cfg) (h : 0 ≤ cfg.maxSize) : Sync cfg (Enc.init cfg) (Dec.init cfg) := by
  refine ⟨⟨Dict.wf_nil, ?_, ?_, ?_, ?_, rfl, rfl, rfl, h⟩, ?_⟩
  · intro k h i hm; exact absurd hm List.not_mem_nil
  · intro k h i hm; exact absurd hm List.not_mem_nil
  · intro k h k' h' i hm; exact absurd hm List.not_mem_nil
  · intro i hi; exact absurd hi (Nat.not_lt_zero _)
  · have := numberNames_spec (registered cfg.isRequest) [] [] ⟨Dict.wf_nil, rfl, by simp [Dict.get?]⟩
      (by simpa using registered_nodup _) (by simp [Dict.has, Dict.get?])
    rw [List.nil_append] at this
    exact this

theorem init_from (S : Hdr → Prop) (cfg : Cfg) : From S (Dec.init cfg) := by
  intro h hm
  exact absurd hm List.not_mem_nil

/-! ### The Processor -/

/-- The separator the Processor uses for a name. -/
theorem splitFromDict_mem {items : List (Str × Str)} {name x : Str} : (name, x) ∈ splitFromDict items ↔
    ∃ v p, (name, v) ∈ items ∧ p ∈ splitOn (sepOf name) v ∧ x = stripWs p := by
  unfold splitFromDict sepOf
  rw [List.mem_flatMap]
  constructor
  · rintro ⟨⟨k, v⟩, hm, h⟩
    simp only at h
    split at h
    · rename_i hk
      obtain ⟨p, hp, he⟩ := List.mem_map.1 h
      cases he
      exact ⟨v, p, hm, by rw [if_pos hk]; exact hp, rfl⟩
    · rename_i hk
      obtain ⟨p, hp, he⟩ := List.mem_map.1 h
      cases he
      exact ⟨v, p, hm, by rw [if_neg hk]; exact hp, rfl⟩
  · rintro ⟨v, p, hm, hp, rfl⟩
    refine ⟨(name, v), hm, ?_⟩
    simp only
    split
    · rename_i hk
      rw [if_pos hk] at hp
      exact List.mem_map.2 ⟨p, hp, rfl⟩
    · rename_i hk
      rw [if_neg hk] at hp
      exact List.mem_map.2 ⟨p, hp, rfl⟩

theorem joinHeader_eq (d : Dict Str Str) (h : Hdr) : joinHeader d h =
    Dict.set d h.1 (match Dict.get? d h.1 with
      | some old => old ++ [sepOf h.1] ++ h.2
      | none => h.2) := by
  unfold joinHeader sepOf
  cases Dict.get? d h.1 with
  | none => rfl
  | some old =>
    by_cases hk : h.1 = b!"cookie"
    · simp only [if_pos hk]
    · simp only [if_neg hk]

theorem joined_spec (L : List Hdr) : ∀ (d : Dict Str Str) (before : List Hdr), Dict.WF d →
    (∀ k, Dict.get? d k = if valuesOf before k = [] then none else some (joinWith [sepOf k] (valuesOf before k))) →
    Dict.WF (L.foldl joinHeader d) ∧ ∀ k, Dict.get? (L.foldl joinHeader d) k =
      if valuesOf (before ++ L) k = [] then none else some (joinWith [sepOf k] (valuesOf (before ++ L) k)) := by
  induction L with
  | nil => intro d before hwf h; simpa using ⟨hwf, h⟩
  | cons x L ih =>
    intro d before hwf h
    rw [List.foldl_cons]
    have hv : ∀ k, valuesOf (before ++ [x]) k = if x.1 = k then valuesOf before k ++ [x.2] else valuesOf before k := by
      intro k
      simp only [valuesOf, List.filter_append, List.map_append]
      by_cases hk : x.1 = k
      · simp [hk]
      · simp [hk]
    have := ih (joinHeader d x) (before ++ [x]) (by rw [joinHeader_eq]; exact hwf.set _ _) (by
      intro k
      rw [joinHeader_eq, Dict.get?_set, hv]
      by_cases hk : x.1 = k
      · rw [if_pos hk, if_pos hk, if_neg (by simp), h, hk]
        by_cases hn : valuesOf before k = []
        · rw [if_pos hn, hn]
          simp [joinWith]
        · rw [if_neg hn]
          simp only [Option.some.injEq]
          rw [Lib.joinWith_append hn (by simp)]
          simp [joinWith]
      · rw [if_neg hk, if_neg hk]
        exact h k)
    simpa using this

theorem decompressAll_eq (cfg : Cfg) (fs : List (List Nat)) : ∀ {d d' : Dec} {outs : List (List Hdr)},
    decodeAll cfg d fs = .ok (d', outs) → decompressAll cfg d fs = .ok (d', outs.map fun hs => hs.foldl joinHeader []) := by
  induction fs with
  | nil =>
    intro d d' outs h
    simp only [decodeAll, Except.ok.injEq, Prod.mk.injEq] at h
    obtain ⟨rfl, rfl⟩ := h
    rfl
  | cons f fs ih =>
    intro d d' outs h
    simp only [decodeAll, bind, Except.bind] at h
    cases h1 : decodeHeaders cfg d f with
    | error e => simp [h1] at h
    | ok r =>
      obtain ⟨d1, hs⟩ := r
      simp only [h1] at h
      cases h2 : decodeAll cfg d1 fs with
      | error e => simp [h2] at h
      | ok r =>
        obtain ⟨d2, rest⟩ := r
        simp only [h2, Except.ok.injEq, Prod.mk.injEq] at h
        obtain ⟨rfl, rfl⟩ := h
        simp only [decompressAll, decompress, h1, bind, Except.bind, ih h2, List.map_cons]

theorem valuesOf_mem {L : List Hdr} {k v : Str} : v ∈ valuesOf L k ↔ (k, v) ∈ L := by
  unfold valuesOf
  rw [List.mem_map]
  constructor
  · rintro ⟨⟨a, b⟩, h, rfl⟩
    rw [List.mem_filter] at h
    have : a = k := by simpa using h.2
    exact this ▸ h.1
  · intro h
    exact ⟨(k, v), List.mem_filter.2 ⟨h, by simp⟩, rfl⟩

theorem ws_space (p : Str) : stripSpace (stripWs p) = stripWs p :=
  stripBy_stripBy (fun c hc => by
    have : c = 32 := by simpa using hc
    simp [this, isWs]) p

/-- What the tester sees of the headers a Processor returns. -/
theorem shows_joined {items : List (Str × Str)} {name x : Str} :
    Shows ((splitFromDict items).foldl joinHeader []) name x ↔
      name ≠ b!":version" ∧ name ≠ b!":status-text" ∧ name ≠ b!"connection" ∧ (name, x) ∈ splitFromDict items := by
  obtain ⟨hwf, hget⟩ := joined_spec (splitFromDict items) [] [] Dict.wf_nil (by intro k; simp [valuesOf, Dict.get?])
  rw [List.nil_append] at hget
  unfold Shows
  refine and_congr Iff.rfl (and_congr Iff.rfl (and_congr Iff.rfl ?_))
  have hsep : ∀ v ∈ valuesOf (splitFromDict items) name, sepOf name ∉ v := by
    intro v hv
    obtain ⟨w, p, _, hp, rfl⟩ := splitFromDict_mem.1 (valuesOf_mem.1 hv)
    exact fun hc => splitOn_noSep_mem hp (stripBy_sub hc)
  have htrim : ∀ v ∈ valuesOf (splitFromDict items) name, stripSpace v = v := by
    intro v hv
    obtain ⟨w, p, _, hp, rfl⟩ := splitFromDict_mem.1 (valuesOf_mem.1 hv)
    exact ws_space p
  constructor
  · rintro ⟨v, p, hm, hp, ht⟩
    rw [Dict.mem_iff_get? hwf, hget] at hm
    by_cases hn : valuesOf (splitFromDict items) name = []
    · rw [if_pos hn] at hm; cases hm
    · rw [if_neg hn] at hm
      cases hm
      rw [← Lib.mem_splitOn, splitOn_joinWith hn hsep] at hp
      rw [Lib.isTrim_iff, htrim p hp] at ht
      subst ht
      exact valuesOf_mem.1 hp
  · intro hm
    have hv := valuesOf_mem.2 hm
    have hn : valuesOf (splitFromDict items) name ≠ [] := List.ne_nil_of_mem hv
    refine ⟨joinWith [sepOf name] (valuesOf (splitFromDict items) name), x, ?_, ?_, ?_⟩
    · rw [Dict.mem_iff_get? hwf, hget, if_neg hn]
    · rw [← Lib.mem_splitOn, splitOn_joinWith hn hsep]
      exact hv
    · rw [Lib.isTrim_iff, htrim x hv]

end Verif.HeaderDiff
