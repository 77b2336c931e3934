import Verif.DeltaBohe.FamilyLemmas
import Verif.Props.Delta1
/-
Properties C80 - C86: compressor/delta_bohe.
-/
namespace Verif.Props
open Verif Verif.Bits Verif.Bits.Spec Verif.Huff Verif.Huff.Spec Verif.Bohe Verif.DeltaBohe

/-- A fresh codec; the items of its dictionary come in any order. -/
def Fresh80 (c : DeltaBohe.Codec) : Prop := ∃ kvs : List Hdr, kvs.Perm defaultDict ∧ DeltaBohe.Codec.init kvs = .ok c

theorem fresh80 : ∃ c, Fresh80 c := by
  obtain ⟨c, e, -⟩ := init_spec (List.Perm.refl defaultDict)
  exact ⟨c, _, .refl _, e⟩

/-- A header is in the header group. -/
def InGroup (c : DeltaBohe.Codec) (kv : Hdr) : Prop := ∃ e ∈ c.entries, e.gen.isSome ∧ (e.key, e.val) = kv

/-- A list that has room for all that is said in a session: the 63 initial headers are in it, and there are at most 1024. -/
def Universe (U : List Hdr) : Prop := (∀ kv ∈ defaultDict, kv ∈ U) ∧ U.length ≤ 1024

/-- Libraries to try the theorems on. -/
def lib80 : Libs where
  int _ := .error .value
  date _ := .error .value
  md5 _ := List.replicate 16 7
  dictHeader s := [(s, none)]
  acceptHeader s := [(s, true)]
  cookie _ := .ok []

/-! ### C80: the header group -/

/-- C80, for sessions with at most 1024 different headers and cookies of different crumbs.  After each message the header group
is what the message says: the names with the codes of their values or, for a cookie, of its crumbs. -/
theorem C80_partial (L : Libs) (h : Huffman) (c0 : DeltaBohe.Codec) (h0 : Fresh80 c0) (U : List Hdr) (hU : Universe U)
    (ms : List DeltaBohe.Message) (m : DeltaBohe.Message) (hv : ∀ x ∈ ms ++ [m], Valid L U x) (c : DeltaBohe.Codec) (bs : List Str)
    (e : DeltaBohe.compressAll L h (ms ++ [m]) c0 = .ok (c, bs)) (kv : Hdr) : InGroup c kv ↔ DeltaBohe.Spec.Says L m.headers kv := by
  obtain ⟨kvs, hp, e0⟩ := h0
  obtain ⟨c1, bs1, bs2, e1, e2, -⟩ := (compressAll_append ms [m]).1 e
  have hg := Good.session hU.2 ms (init_good hp hU.1 e0) (fun x hx => hv x (by simp [hx])) e1
  obtain ⟨b, e2, -⟩ := compressAll_one e2
  obtain ⟨es, hes, -, -, hmade, -⟩ := hg.step hU.2 (hv m (by simp)) e2
  rw [← sentList_says hes kv]
  exact hmade.group kv

/-- Three messages: a cookie, nothing, and that cookie twice. -/
def session80 : List DeltaBohe.Message :=
  [⟨[(b!"cookie", b!"c")], id⟩, ⟨[], id⟩, ⟨[(b!"cookie", b!"c;c")], id⟩]

/-- The run of a session on a fresh codec up to the wire. -/
def run80 (ms : List DeltaBohe.Message) : Py (DeltaBohe.Codec × List Instrs) := do
  let c ← DeltaBohe.Codec.init defaultDict
  sendAll lib80 ms c

instance (g : Instrs) : Decidable (InstrsOk g) := by unfold InstrsOk; infer_instance

theorem compressAll_of_send {L : Libs} {h : Huffman} {codes : List (List Bool)} (hk : Codes h codes) (h257 : codes.length = 257)
    (ms : List DeltaBohe.Message) : ∀ {c c' : DeltaBohe.Codec} {gs : List Instrs}, sendAll L ms c = .ok (c', gs) → (∀ g ∈ gs, InstrsOk g) →
    ∃ bs, DeltaBohe.compressAll L h ms c = .ok (c', bs) ∧ List.Forall₂ (fun g b => DeltaBohe.opsToRealOps h g = .ok b) gs bs := by
  induction ms with
  | nil => intro c c' gs e _; cases e; exact ⟨[], rfl, .nil⟩
  | cons m ms ih =>
    intro c c' gs e hg
    simp only [sendAll, bind, Except.bind] at e
    cases e1 : DeltaBohe.makeOperations L m.ord c m.headers with
    | error x => rw [e1] at e; cases e
    | ok r =>
      obtain ⟨c1, g⟩ := r
      rw [e1] at e
      simp only at e
      cases e2 : sendAll L ms c1 with
      | error x => rw [e2] at e; cases e
      | ok r =>
        obtain ⟨c2, gs'⟩ := r
        rw [e2] at e
        cases e
        obtain ⟨bs, f1, f2⟩ := ih e2 fun x hx => hg x (by simp [hx])
        obtain ⟨b, eb, -⟩ := DeltaBohe.wire_spec hk h257 (hg g (by simp))
        exact ⟨b :: bs, by simp only [DeltaBohe.compressAll, DeltaBohe.compress, bind, Except.bind, e1, eb, f1, pure, Except.pure], .cons eb f2⟩

/-- C80.  A cookie with a crumb that is in the table but was not in the last message, twice: the crumb is toggled twice, and the message
says nothing. -/
theorem C80_false (h : Huffman) (hc : IsCoder1 h) : ∃ c0 c bs, Fresh80 c0 ∧ DeltaBohe.compressAll lib80 h session80 c0 = .ok (c, bs) ∧
    DeltaBohe.Spec.Says lib80 [(b!"cookie", b!"c;c")] (b!"cookie", [95, 1, 99, 0]) ∧ ∀ kv, ¬ InGroup c kv := by
  obtain ⟨codes, hk, h257⟩ := hc.codes
  have key : (run80 session80).toOption.map (fun r => (r.1.entries.all fun e => e.gen.isNone, r.2.all fun g => decide (InstrsOk g))) =
      some (true, true) := by decide +kernel
  obtain ⟨c0, e0, -⟩ := init_spec (List.Perm.refl defaultDict)
  have hr : run80 session80 = sendAll lib80 session80 c0 := by simp only [run80, e0, bind, Except.bind]
  rw [hr] at key
  cases e1 : sendAll lib80 session80 c0 with
  | error x => rw [e1] at key; cases key
  | ok r =>
    obtain ⟨c, gs⟩ := r
    rw [e1] at key
    simp only [Except.toOption, Option.map_some, Option.some.injEq, Prod.mk.injEq, List.all_eq_true, decide_eq_true_eq] at key
    obtain ⟨bs, f1, -⟩ := compressAll_of_send hk h257 session80 e1 key.2
    refine ⟨c0, c, bs, ⟨_, .refl _, e0⟩, f1, ⟨b!"c;c", by simp, b!"c", by decide, by decide +kernel⟩, ?_⟩
    rintro kv ⟨e, he, h1, -⟩
    have := key.1 e he
    rw [Option.isNone_iff_eq_none] at this
    rw [this] at h1
    cases h1

/-! ### C81: what a receiver would hear -/

/-- C81.  A receiver that executes the operations stays in step, in every session that the sender survives: it raises no error, and
its table holds the same headers under the same indices, with the same ones in the header group. -/
theorem C81_in_step (L : Libs) (c0 : DeltaBohe.Codec) (h0 : Fresh80 c0) (ms : List DeltaBohe.Message) (c : DeltaBohe.Codec) (gs : List Instrs)
    (e : sendAll L ms c0 = .ok (c, gs)) : ∃ d hs, receiveAll gs c0 = .ok (d, hs) ∧
      d.entries.map (fun x => (x.idx, x.key, x.val, x.gen.isSome)) = c.entries.map (fun x => (x.idx, x.key, x.val, x.gen.isSome)) := by
  obtain ⟨kvs, hp, e0⟩ := h0
  obtain ⟨c0', e0', hi, -⟩ := init_spec hp
  rw [e0] at e0'
  cases e0'
  obtain ⟨-, d, hs, f, s⟩ := sim_session ms (Sim.refl c0) hi.core e
  exact ⟨d, hs, f, s.entries⟩

/-- C81, for sessions as in C80.  The last headers heard are the names and codes of the message; the codes of crumbs, if they do not
contain NUL, are put together with semicolons in some order. -/
theorem C81_partial (L : Libs) (h : Huffman) (c0 : DeltaBohe.Codec) (h0 : Fresh80 c0) (U : List Hdr) (hU : Universe U)
    (ms : List DeltaBohe.Message) (m : DeltaBohe.Message) (hv : ∀ x ∈ ms ++ [m], Valid L U x) (c : DeltaBohe.Codec) (bs : List Str)
    (e : DeltaBohe.compressAll L h (ms ++ [m]) c0 = .ok (c, bs)) :
    ∃ gs d hs last, List.Forall₂ (fun g b => DeltaBohe.opsToRealOps h g = .ok b) gs bs ∧
      receiveAll gs c0 = .ok (d, hs ++ [last]) ∧
      (∀ k, k ≠ b!"cookie" → ∀ w, Dict.get? last k = some w ↔ DeltaBohe.Spec.Says L m.headers (k, w)) ∧
      (∀ v, (b!"cookie", v) ∈ m.headers → ∃ ws, (ws.map Except.ok).Perm ((DeltaBohe.Spec.parts b!"cookie" v).map (encodeField L b!"cookie")) ∧
        ((∀ w ∈ ws, 0 ∉ w) → Dict.get? last b!"cookie" = DeltaBohe.Spec.joined b!"; " ws)) ∧
      ((∀ v, (b!"cookie", v) ∉ m.headers) → Dict.get? last b!"cookie" = none) := by
  obtain ⟨kvs, hp, e0⟩ := h0
  obtain ⟨c0', e0', hi, -⟩ := init_spec hp
  rw [e0] at e0'
  cases e0'
  obtain ⟨c1, bs1, bs2, e1, e2, rfl⟩ := (compressAll_append ms [m]).1 e
  have hg := Good.session hU.2 ms (init_good hp hU.1 e0) (fun x hx => hv x (by simp [hx])) e1
  obtain ⟨b, e3, rfl⟩ := compressAll_one e2
  obtain ⟨es, hes, hn, -, hmade, -⟩ := hg.step hU.2 (hv m (by simp)) e3
  obtain ⟨gs, f1, f2⟩ := sendAll_of_compress ms e1
  obtain ⟨g, g1, g2⟩ := compress_ok e3
  obtain ⟨hc1, d1, hs, f3, s1⟩ := sim_session ms (Sim.refl c0) hi.core f1
  obtain ⟨-, -, d2, f4, s2, hc2, hnp⟩ := sim_message s1 hc1 g1
  have hgr : ∀ kv, (∃ e ∈ d2.entries, e.gen.isSome ∧ e.kv = kv) ↔ kv ∈ es := by
    intro kv
    rw [← adjust_group hc2 hnp kv]
    show (∃ e ∈ (generate d2).1.entries, _) ↔ _
    rw [s2.inGroup kv]
    exact hmade.group kv
  refine ⟨gs ++ [g], (generate d2).1, hs, (generate d2).2, List.rel_append f2 (.cons g2 .nil), ?_, ?_, ?_, ?_⟩
  · exact receiveAll_append gs [g] f3 (by simp only [receiveAll, bind, Except.bind, f4, pure, Except.pure])
  · intro k hk w
    obtain ⟨l, hl, eg⟩ := generate_get hc2 hn hgr k
    rw [if_neg hk] at eg
    rw [eg, ← sentList_says hes]
    have hmem : ∀ x, x ∈ l ↔ (k, x) ∈ es := by
      intro x
      rw [hl.mem_iff, List.mem_map]
      constructor
      · rintro ⟨kv, hkv, rfl⟩
        obtain ⟨h1, h2⟩ := List.mem_filter.1 hkv
        rw [decide_eq_true_eq] at h2
        rw [← h2]
        exact h1
      · exact fun hx => ⟨(k, x), List.mem_filter.2 ⟨hx, by simp⟩, rfl⟩
    have hone : ∀ x y, x ∈ l → y ∈ l → x = y := by
      intro x y hx hy
      obtain ⟨v1, a1, x1, b1, d1⟩ := (sentList_says hes _).1 ((hmem x).1 hx)
      obtain ⟨v2, a2, x2, b2, d2⟩ := (sentList_says hes _).1 ((hmem y).1 hy)
      have := List.inj_on_of_nodup_map (hv m (by simp)).names a1 a2 rfl
      cases this
      unfold DeltaBohe.Spec.parts at b1 b2
      rw [if_neg hk, List.mem_singleton] at b1 b2
      rw [b1] at d1
      rw [b2] at d2
      rw [d1] at d2
      cases d2
      rfl
    have hnd : l.Nodup := by
      refine hl.nodup_iff.2 ?_
      rw [List.nodup_map_iff_inj_on (hn.filter _)]
      intro x hx y hy hxy
      have h1 := (List.mem_filter.1 hx).2
      have h2 := (List.mem_filter.1 hy).2
      rw [decide_eq_true_eq] at h1 h2
      exact Prod.ext (h1.trans h2.symm) hxy
    rw [← hmem w]
    cases l with
    | nil => simp [DeltaBohe.Spec.joined]
    | cons a l =>
      cases l with
      | cons b l =>
        exfalso
        have := hone a b (by simp) (by simp)
        rw [List.nodup_cons] at hnd
        exact hnd.1 (by simp [this])
      | nil =>
        simp only [DeltaBohe.Spec.joined, List.foldl_nil, Option.some.injEq, List.mem_singleton]
        exact eq_comm
  · intro v hmv
    obtain ⟨l, hl, eg⟩ := generate_get hc2 hn hgr b!"cookie"
    rw [if_pos rfl] at eg
    refine ⟨l, ?_, fun hz => by rw [eg]; exact joined_cookie l hz⟩
    have hcr := (hv m (by simp)).crumbs v hmv
    have hnl : (l.map Except.ok : List (Py Str)).Nodup := by
      refine List.Nodup.map (fun a b hab => by cases hab; rfl) (hl.nodup_iff.2 ?_)
      rw [List.nodup_map_iff_inj_on (hn.filter _)]
      intro x hx y hy hxy
      have h1 := (List.mem_filter.1 hx).2
      have h2 := (List.mem_filter.1 hy).2
      rw [decide_eq_true_eq] at h1 h2
      exact Prod.ext (h1.trans h2.symm) hxy
    rw [List.perm_ext_iff_of_nodup hnl hcr]
    have hmem : ∀ x, x ∈ l ↔ (b!"cookie", x) ∈ es := by
      intro x
      rw [hl.mem_iff, List.mem_map]
      constructor
      · rintro ⟨kv, hkv, rfl⟩
        obtain ⟨h1, h2⟩ := List.mem_filter.1 hkv
        rw [decide_eq_true_eq] at h2
        rw [← h2]
        exact h1
      · exact fun hx => ⟨(b!"cookie", x), List.mem_filter.2 ⟨hx, by simp⟩, rfl⟩
    intro r
    constructor
    · intro hr
      obtain ⟨x, hx, rfl⟩ := List.mem_map.1 hr
      obtain ⟨v', a1, y, b1, d1⟩ := (sentList_says hes _).1 ((hmem x).1 hx)
      have := List.inj_on_of_nodup_map (hv m (by simp)).names a1 hmv rfl
      cases this
      exact List.mem_map.2 ⟨y, b1, d1⟩
    · intro hr
      obtain ⟨y, hy, rfl⟩ := List.mem_map.1 hr
      -- all crumbs were encoded
      have : ∃ w, encodeField L b!"cookie" y = .ok w := by
        clear eg hl hmem hnl hcr f3 s1 f4 s2 hc2 hnp hgr hmade f1 f2 g1 g2 hc1 hn
        revert es
        have key : ∀ hs' : List Hdr, (b!"cookie", v) ∈ hs' → ∀ es, sentList L hs' = .ok es → ∃ w, encodeField L b!"cookie" y = .ok w := by
          intro hs'
          induction hs' with
          | nil => intro hm; cases hm
          | cons p hs' ih =>
            intro hm es hes
            obtain ⟨k', v'⟩ := p
            simp only [sentList, bind, Except.bind] at hes
            cases h1 : encList L k' (orderedParts k' v') with
            | error x => rw [h1] at hes; cases hes
            | ok a =>
              rw [h1] at hes
              simp only at hes
              cases h2 : sentList L hs' with
              | error x => rw [h2] at hes; cases hes
              | ok b =>
                rcases List.mem_cons.1 hm with hm | hm
                · cases hm
                  have := encList_ok h1
                  have hy' := (parts_perm b!"cookie" v).mem_iff.2 hy
                  obtain ⟨i, hi, rfl⟩ := List.getElem_of_mem hy'
                  have := (List.forall₂_iff_get.1 this).2 i hi (by rw [← (List.forall₂_iff_get.1 this).1]; exact hi)
                  exact ⟨_, this.2⟩
                · exact ih hm b h2
        exact fun es hes => key m.headers hmv es hes
      obtain ⟨w, hw⟩ := this
      rw [hw]
      exact List.mem_map.2 ⟨w, (hmem w).2 ((sentList_says hes _).2 ⟨v, hmv, y, hy, hw⟩), rfl⟩
  · intro hno
    obtain ⟨l, hl, eg⟩ := generate_get hc2 hn hgr b!"cookie"
    rw [if_pos rfl] at eg
    have : l = [] := by
      rw [List.eq_nil_iff_forall_not_mem]
      intro x hx
      obtain ⟨kv, hkv, -⟩ := List.mem_map.1 (hl.mem_iff.1 hx)
      obtain ⟨h1, h2⟩ := List.mem_filter.1 hkv
      rw [decide_eq_true_eq] at h2
      obtain ⟨v, hv', -⟩ := (sentList_says hes kv).1 h1
      rw [h2] at hv'
      exact hno v hv'
    rw [eg, this]
    rfl

/-- The run of a session at both ends. -/
def hear80 (ms : List DeltaBohe.Message) : Py (List (Dict Str Str)) := do
  let c ← DeltaBohe.Codec.init defaultDict
  let (_, gs) ← sendAll lib80 ms c
  let (_, hs) ← receiveAll gs c
  pure hs

/-- C81.  A cookie without value is not heard as it was encoded: the NUL in its code becomes a semicolon and a space. -/
theorem C81_false : encodeField lib80 b!"cookie" b!"c" = .ok [95, 1, 99, 0] ∧
    hear80 [⟨[(b!"cookie", b!"c")], id⟩] = .ok [[(b!"cookie", [95, 1, 99, 59, 32])]] := by
  decide +kernel

/-- Three messages at both ends: a header is sent again, another one is dropped and comes back. -/
example : hear80 [⟨[(b!":path", b!"/a"), (b!"x", b!"1")], id⟩, ⟨[(b!":path", b!"/a")], id⟩, ⟨[(b!"x", b!"1"), (b!":path", b!"/b")], id⟩] =
    .ok [[(b!":path", b!"/a"), (b!"x", b!"1")], [(b!":path", b!"/a")], [(b!"x", b!"1"), (b!":path", b!"/b")]] := by
  decide +kernel

/-! ### C82: what is accepted -/

/-- C82.  A session is compressed without error if there are at most 1024 different headers, each value fits into 64 KiB together with
all the names, and the indices last: 63 and two for each part of each header are less than 65536. -/
theorem C82_total (L : Libs) (h : Huffman) (hc : IsCoder1 h) (c0 : DeltaBohe.Codec) (h0 : Fresh80 c0) (U : List Hdr) (hU : Universe U)
    (hfit : ∀ kv ∈ U, ((U.map (·.1)).dedup.map List.length).sum + kv.2.length ≤ 65536)
    (hb : ∀ kv ∈ U, (∀ x ∈ kv.1, x < 256) ∧ ∀ x ∈ kv.2, x < 256) (ms : List DeltaBohe.Message)
    (hv : ∀ m ∈ ms, Valid L U m ∧ DeltaBohe.Spec.Encodable L m.headers)
    (hlt : 63 + 2 * (ms.map fun m => (m.headers.map fun kv => (DeltaBohe.Spec.parts kv.1 kv.2).length).sum).sum < 65536) :
    ∃ c bs, DeltaBohe.compressAll L h ms c0 = .ok (c, bs) := by
  obtain ⟨kvs, hp, e0⟩ := h0
  obtain ⟨codes, hk, h257⟩ := hc.codes
  obtain ⟨c0', e0', -, -, -, -, hnext, -⟩ := init_spec hp
  rw [e0] at e0'
  cases e0'
  exact session_total hk h257 hU.2 hfit hb ms (init_good hp hU.1 e0) hv (by rw [hnext]; omega)

/-- C82.  A new value of more than 64872 bytes is refused with a NameError. -/
theorem C82_raises (L : Libs) (h : Huffman) (c0 : DeltaBohe.Codec) (h0 : Fresh80 c0) (U V : List Hdr) (hU : Universe U) (hV : Universe V)
    (hUV : ∀ kv ∈ U, kv ∈ V) (ms : List DeltaBohe.Message) (hv : ∀ x ∈ ms, Valid L U x) (c : DeltaBohe.Codec) (bs : List Str)
    (e : DeltaBohe.compressAll L h ms c0 = .ok (c, bs)) (m : DeltaBohe.Message) (hm : Valid L V m) (hen : DeltaBohe.Spec.Encodable L m.headers)
    (kv : Hdr) (hs : DeltaBohe.Spec.Says L m.headers kv) (hnew : kv ∉ U) (hlong : 64872 < kv.2.length) :
    DeltaBohe.compress L h c m = .error .name := by
  obtain ⟨kvs, hp, e0⟩ := h0
  have hg0 := init_good hp hU.1 e0
  have hg := Good.session hU.2 ms hg0 hv e
  obtain ⟨-, hz⟩ := session_known hU.2 ms hg0 hv e
  obtain ⟨c0', e0', -, -, -, -, -, -, -, -, -, hz0⟩ := init_spec hp
  rw [e0] at e0'
  cases e0'
  obtain ⟨es, hes⟩ := sentList_total hen
  have hn := sentList_nodup hes hm.names hm.crumbs
  have hroom := (hg.mono hUV).room hn (fun kv hkv => hm.sub kv ((sentList_says hes kv).1 hkv))
  have := hV.2
  rcases make_spec hm.ord hg.inv hes hn (by unfold maxVals; omega) with ⟨e1, -⟩ | ⟨c', -, hmade⟩
  · simp only [DeltaBohe.compress, bind, Except.bind, e1]
  · exfalso
    have h1 := hmade.fits kv ((sentList_says hes kv).2 hs) (fun hx => hnew (hg.sub kv hx))
    unfold maxStateSize at h1
    omega

/-- The list of headers for the examples. -/
def pathsU (ps : List Str) : List Hdr := defaultDict ++ ps.map fun p => (b!":path", p)

theorem pathsU_universe {ps : List Str} (h : ps.length ≤ 961) : Universe (pathsU ps) := by
  refine ⟨fun kv hkv => List.mem_append_left _ hkv, ?_⟩
  unfold pathsU
  rw [List.length_append, List.length_map]
  have : defaultDict.length = 63 := by decide
  omega

theorem path_says (L : Libs) (p : Str) (kv : Hdr) : DeltaBohe.Spec.Says L (pathMsg p).headers kv ↔ kv = (b!":path", p) := by
  have := sentList_says (path_sent L p) kv
  rw [List.mem_singleton] at this
  exact this.symm

theorem path_encodable (L : Libs) (p : Str) : DeltaBohe.Spec.Encodable L (pathMsg p).headers := by
  intro k v hkv x hx
  simp only [pathMsg, List.mem_singleton, Prod.mk.injEq] at hkv
  obtain ⟨rfl, rfl⟩ := hkv
  unfold DeltaBohe.Spec.parts at hx
  rw [if_neg (by decide), List.mem_singleton] at hx
  subst hx
  have h1 := path_sent L x
  obtain ⟨v, hv, y, hy, e⟩ := (sentList_says h1 (b!":path", x)).1 (by simp)
  simp only [List.mem_singleton, Prod.mk.injEq, true_and] at hv
  subst hv
  rw [show DeltaBohe.Spec.parts (b!":path", v).1 v = [v] from if_neg (by decide : ¬ b!":path" = b!"cookie"), List.mem_singleton] at hy
  subst hy
  exact ⟨_, e⟩

theorem path_valid (L : Libs) {ps : List Str} {p : Str} (h : p ∈ ps) : Valid L (pathsU ps) (pathMsg p) := by
  refine ⟨fun l => List.Perm.refl _, by simp [pathMsg], ?_, ?_⟩
  · intro v hv
    simp [pathMsg] at hv
  · intro kv hkv
    rw [path_says] at hkv
    subst hkv
    exact List.mem_append_right _ (List.mem_map.2 ⟨p, h, rfl⟩)

/-- A session as C82 wants it, with a cookie of two crumbs. -/
example : ∃ U : List Hdr, Universe U ∧ (∀ kv ∈ U, ((U.map (·.1)).dedup.map List.length).sum + kv.2.length ≤ 65536) ∧
    (∀ kv ∈ U, (∀ x ∈ kv.1, x < 256) ∧ ∀ x ∈ kv.2, x < 256) ∧
    Valid lib80 U ⟨[(b!"cookie", b!"c; d")], id⟩ ∧ DeltaBohe.Spec.Encodable lib80 [(b!"cookie", b!"c; d")] := by
  have hp : DeltaBohe.Spec.parts b!"cookie" b!"c; d" = [b!"c", b!"d"] := by decide
  refine ⟨defaultDict ++ [(b!"cookie", [95, 1, 99, 0]), (b!"cookie", [95, 1, 100, 0])], ⟨fun kv hkv => List.mem_append_left _ hkv, by decide⟩,
    by decide +kernel, by decide +kernel, ⟨fun l => List.Perm.refl _, by decide, ?_, ?_⟩, ?_⟩
  · intro v hv
    simp only [List.mem_singleton, Prod.mk.injEq, true_and] at hv
    subst hv
    rw [hp]
    decide +kernel
  · rintro ⟨k, w⟩ ⟨v, hv, x, hx, e⟩
    simp only [List.mem_singleton, Prod.mk.injEq] at hv
    obtain ⟨rfl, rfl⟩ := hv
    simp only [hp, List.mem_cons, List.not_mem_nil, or_false] at hx
    have h1 : encodeField lib80 b!"cookie" b!"c" = .ok [95, 1, 99, 0] := by decide +kernel
    have h2 : encodeField lib80 b!"cookie" b!"d" = .ok [95, 1, 100, 0] := by decide +kernel
    rcases hx with rfl | rfl
    · have := h1.symm.trans e
      cases this
      simp
    · have := h2.symm.trans e
      cases this
      simp
  · intro k v hv x hx
    simp only [List.mem_singleton, Prod.mk.injEq] at hv
    obtain ⟨rfl, rfl⟩ := hv
    simp only [hp, List.mem_cons, List.not_mem_nil, or_false] at hx
    rcases hx with rfl | rfl
    · exact ⟨[95, 1, 99, 0], by decide +kernel⟩
    · exact ⟨[95, 1, 100, 0], by decide +kernel⟩

/-! ### C83: indices run out -/

/-- C83.  A message can be sent any number of times in a row. -/
theorem C83_repeat (L : Libs) (h : Huffman) (hc : IsCoder1 h) (c0 : DeltaBohe.Codec) (h0 : Fresh80 c0) (U : List Hdr) (hU : Universe U)
    (hfit : ∀ kv ∈ U, ((U.map (·.1)).dedup.map List.length).sum + kv.2.length ≤ 65536)
    (hb : ∀ kv ∈ U, (∀ x ∈ kv.1, x < 256) ∧ ∀ x ∈ kv.2, x < 256) (m : DeltaBohe.Message) (hv : Valid L U m)
    (hen : DeltaBohe.Spec.Encodable L m.headers) (n : Nat) :
    ∃ c bs, DeltaBohe.compressAll L h (List.replicate n m) c0 = .ok (c, bs) := by
  obtain ⟨kvs, hp, e0⟩ := h0
  obtain ⟨codes, hk, h257⟩ := hc.codes
  obtain ⟨c0', e0', -, -, -, -, hnext, -⟩ := init_spec hp
  rw [e0] at e0'
  cases e0'
  cases n with
  | zero => exact ⟨c0, [], rfl⟩
  | succ n =>
    obtain ⟨es, hes⟩ := sentList_total hen
    have hn := sentList_nodup hes hv.names hv.crumbs
    have hs : ∀ kv ∈ es, kv ∈ U := fun kv hkv => hv.sub kv ((sentList_says hes kv).1 hkv)
    obtain ⟨c1, b, e1, -, hmade, hg1⟩ := (init_good hp hU.1 e0).sends hk h257 hv.ord hes hn hs hU.2 (fun kv hkv => hfit kv (hs kv hkv))
      (by rw [hnext]; omega) (fun kv hkv => hb kv (hs kv hkv))
    obtain ⟨c2, bs, e2, -⟩ := repeats (L := L) hk h257 hU.2 hv.ord hes hn hs n hg1 hmade.group
    exact ⟨c2, b :: bs, by simp only [List.replicate_succ, DeltaBohe.compressAll, bind, Except.bind, e1, e2, pure, Except.pure]⟩

/-- C83.  But indices are never used again: after 65472 messages that are not empty and one more, a message that leaves out a header of that
one cannot be sent. -/
theorem C83_raises (L : Libs) (h : Huffman) (c0 : DeltaBohe.Codec) (h0 : Fresh80 c0) (U : List Hdr) (hU : Universe U)
    (ms : List DeltaBohe.Message) (m m' : DeltaBohe.Message) (hv : ∀ x ∈ ms ++ [m, m'], Valid L U x) (hne : ∀ x ∈ ms, x.headers ≠ [])
    (hlen : 65472 ≤ ms.length) (c : DeltaBohe.Codec) (bs : List Str) (e : DeltaBohe.compressAll L h (ms ++ [m]) c0 = .ok (c, bs))
    (hen : DeltaBohe.Spec.Encodable L m'.headers) (kv : Hdr) (hs : DeltaBohe.Spec.Says L m.headers kv) (hs' : ¬ DeltaBohe.Spec.Says L m'.headers kv) :
    ∃ err, err ∈ [PyErr.name, .standard, .struct] ∧ DeltaBohe.compress L h c m' = .error err := by
  obtain ⟨kvs, hp, e0⟩ := h0
  obtain ⟨c0', e0', -, -, -, -, hnext, -⟩ := init_spec hp
  rw [e0] at e0'
  cases e0'
  obtain ⟨c1, bs1, bs2, e1, e2, -⟩ := (compressAll_append ms [m]).1 e
  have hg0 := init_good hp hU.1 e0
  have hg := Good.session hU.2 ms hg0 (fun x hx => hv x (by simp [hx])) e1
  have hn1 := session_next hU.2 ms hg0 (fun x hx => hv x (by simp [hx])) hne e1
  obtain ⟨b, e3, -⟩ := compressAll_one e2
  obtain ⟨es, hes, -, -, hmade, hg2⟩ := hg.step hU.2 (hv m (by simp)) e3
  obtain ⟨x, hx, hxg, rfl⟩ := (hmade.group kv).2 ((sentList_says hes kv).2 hs)
  have hlate := hmade.late x hx hxg
  obtain ⟨es', hes'⟩ := sentList_total hen
  have hv' := hv m' (by simp)
  have hn := sentList_nodup hes' hv'.names hv'.crumbs
  have hroom := hg2.room hn (fun kv hkv => hv'.sub kv ((sentList_says hes' kv).1 hkv))
  have hU2 := hU.2
  rcases compress_big (L := L) (h := h) hg2.inv hv'.ord hes' hn (by unfold maxVals; omega) hx hxg
      (fun hm => hs' ((sentList_says hes' _).1 hm)) (by rw [hnext] at hn1; omega) with h1 | h1 | h1
  · exact ⟨.name, by simp, h1⟩
  · exact ⟨.standard, by simp, h1⟩
  · exact ⟨.struct, by simp, h1⟩

/-- One path 65473 times, and then another one. -/
example (L : Libs) (h : Huffman) (hc : IsCoder1 h) (c0 : DeltaBohe.Codec) (h0 : Fresh80 c0) : ∃ c bs,
    DeltaBohe.compressAll L h (List.replicate 65473 (pathMsg b!"/a")) c0 = .ok (c, bs) ∧
    ∃ err, err ∈ [PyErr.name, .standard, .struct] ∧ DeltaBohe.compress L h c (pathMsg b!"/b") = .error err := by
  have hU := pathsU_universe (ps := [b!"/a", b!"/b"]) (by decide)
  have hva : Valid L (pathsU [b!"/a", b!"/b"]) (pathMsg b!"/a") := path_valid L (by decide)
  have hvb : Valid L (pathsU [b!"/a", b!"/b"]) (pathMsg b!"/b") := path_valid L (by decide)
  obtain ⟨c, bs, e⟩ := C83_repeat L h hc c0 h0 _ hU (by decide +kernel) (by decide +kernel) _ hva (path_encodable L _) 65473
  refine ⟨c, bs, e, ?_⟩
  rw [show 65473 = 65472 + 1 from rfl, List.replicate_succ'] at e
  refine C83_raises L h c0 h0 _ hU (List.replicate 65472 (pathMsg b!"/a")) _ _ ?_ ?_ (by rw [List.length_replicate]) c bs e (path_encodable L _) (b!":path", b!"/a")
    ((path_says L _ _).2 rfl) (by rw [path_says]; decide)
  · intro x hx
    simp only [List.mem_append, List.mem_cons, List.not_mem_nil, or_false] at hx
    rcases hx with hx | rfl | rfl
    · rw [List.eq_of_mem_replicate hx]
      exact hva
    · exact hva
    · exact hvb
  · intro x hx
    rw [List.eq_of_mem_replicate hx]
    simp [pathMsg]

/-! ### C84: the table is full -/

theorem default_path (p : Str) : (b!":path", p) ∈ defaultDict ↔ p = b!"/" := by
  constructor
  · intro hm
    have : ∀ kv ∈ defaultDict, kv.1 = b!":path" → kv.2 = b!"/" := by decide +kernel
    exact this _ hm rfl
  · rintro rfl
    decide +kernel

/-- C84.  961 different new paths can be sent one after the other, but not another one: the table is full, and finding the
header group empty while it drops the oldest value, the code deletes an item of the group instead of the group (TypeError). -/
theorem C84_raises (L : Libs) (h : Huffman) (hc : IsCoder1 h) (c0 : DeltaBohe.Codec) (h0 : Fresh80 c0) (ps : List Str) (hn : ps.Nodup)
    (hl : ps.length = 961) (hlen : ∀ p ∈ ps, p.length ≤ 64872) (hb : ∀ p ∈ ps, ∀ x ∈ p, x < 256) (hd : b!"/" ∉ ps) (p : Str)
    (hp : p ∉ b!"/" :: ps) : ∃ c bs, DeltaBohe.compressAll L h (ps.map pathMsg) c0 = .ok (c, bs) ∧
      DeltaBohe.compress L h c (pathMsg p) = .error .type := by
  obtain ⟨kvs, hpk, e0⟩ := h0
  obtain ⟨codes, hk, h257⟩ := hc.codes
  obtain ⟨c, bs, e, hg, hnum, -, hlru, hkvs, hkeys⟩ := fill (L := L) hk h257 hpk e0 ps hn hd (by omega) hlen hb
  refine ⟨c, bs, e, ?_⟩
  rw [List.mem_cons, not_or] at hp
  rcases make_full (L := L) (ord := id) (fun l => List.Perm.refl _) hg.inv (path_sent L p) (by simp) (by simp) (by
      intro kv hkv
      rw [List.mem_singleton] at hkv
      subst hkv
      rw [hkvs, default_path]
      rintro (hm | hm)
      · exact hp.1 hm
      · obtain ⟨q, hq, e⟩ := List.mem_map.1 hm
        cases e
        exact hp.2 hq) (by rw [hnum, hl]; norm_num) (by
      intro h0
      rw [h0] at hlru
      have := congrArg List.length hlru
      simp [hl] at this) with e1 | ⟨⟨kv, hkv, hk1⟩, -⟩
  · simp only [DeltaBohe.compress, bind, Except.bind, pathMsg, e1]
  · exfalso
    rw [List.mem_singleton] at hkv
    subst hkv
    have : b!":path" ∈ c.keyMap.keys := (hkeys _).2 (by decide +kernel)
    rw [mem_keyMap] at this
    rw [Option.isNone_iff_eq_none] at hk1
    rw [hk1] at this
    cases this

theorem scheme_sent (L : Libs) (p q : Str) : sentList L [(b!":path", p), (b!":scheme", b!"https"), (b!":host", q)] =
    .ok [(b!":path", p), (b!":scheme", b!"https"), (b!":host", q)] := by
  have h1 : orderedParts b!":path" p = [p] := if_neg (by decide)
  have h2 : orderedParts b!":scheme" b!"https" = [b!"https"] := if_neg (by decide)
  have h3 : orderedParts b!":host" q = [q] := if_neg (by decide)
  have hf : ∀ k v : Str, k ∈ [b!":path", b!":scheme", b!":host"] → encodeField L k v = .ok v := by
    intro k v hk
    simp only [List.mem_cons, List.not_mem_nil, or_false] at hk
    unfold encodeField
    rcases hk with rfl | rfl | rfl <;>
      rw [if_neg (by decide), if_neg (by decide), if_neg (by decide), if_neg (by decide), if_neg (by decide), if_neg (by decide),
        if_neg (by decide), if_neg (by decide), if_neg (by decide)]
  simp only [sentList, h1, h2, h3, encList, hf _ _ (show b!":path" ∈ _ by simp), hf _ _ (show b!":scheme" ∈ _ by simp),
    hf _ _ (show b!":host" ∈ _ by simp), bind, Except.bind, pure, Except.pure]
  rfl

/-- C84.  If the next message says something that is in the table, its new headers do get room, but the oldest path makes way: a message with
that path is sent, and does not say it. -/
theorem C84_lost (L : Libs) (h : Huffman) (hc : IsCoder1 h) (c0 : DeltaBohe.Codec) (h0 : Fresh80 c0) (p : Str) (ps : List Str) (hn : (p :: ps).Nodup)
    (hl : ps.length = 960) (hlen : ∀ x ∈ p :: ps, x.length ≤ 64872) (hb : ∀ x ∈ p :: ps, ∀ y ∈ x, y < 256) (hd : b!"/" ∉ p :: ps)
    (q : Str) (hq : q ≠ []) (hqb : ∀ y ∈ q, y < 256) : ∃ c bs c' b, DeltaBohe.compressAll L h ((p :: ps).map pathMsg) c0 = .ok (c, bs) ∧
      DeltaBohe.compress L h c ⟨[(b!":path", p), (b!":scheme", b!"https"), (b!":host", q)], id⟩ = .ok (c', b) ∧ ¬ InGroup c' (b!":path", p) := by
  obtain ⟨kvs, hpk, e0⟩ := h0
  obtain ⟨codes, hk, h257⟩ := hc.codes
  obtain ⟨c, bs, e, hg, hnum, hnext, hlru, hkvs, hkeys⟩ := fill (L := L) hk h257 hpk e0 (p :: ps) hn hd (by simp [hl]) hlen hb
  have hpd : p ≠ b!"/" := fun hx => hd (by simp [hx])
  obtain ⟨ve, rest, hcl, hve⟩ : ∃ ve rest, c.lru = some ve :: rest ∧ ve.kv = (b!":path", p) := by
    cases hq : c.lru with
    | nil => rw [hq] at hlru; cases hlru
    | cons x l =>
      rw [hq] at hlru
      simp only [List.map_cons, List.cons.injEq] at hlru
      cases x with
      | none => cases hlru.1
      | some e => exact ⟨e, l, rfl, Option.some.inj hlru.1⟩
  have hes := scheme_sent L p q
  set es : List Hdr := [(b!":path", p), (b!":scheme", b!"https"), (b!":host", q)] with hesd
  have hnd : es.Nodup := by simp [hesd]
  have hin : ∀ kv, kv ∈ es → kv ∉ c.entries.map VE.kv → kv = (b!":host", q) := by
    intro kv hkv hno
    rw [hkvs] at hno
    simp only [hesd, List.mem_cons, List.not_mem_nil, or_false] at hkv
    rcases hkv with rfl | rfl | rfl
    · exact absurd (.inr (by simp)) hno
    · exact absurd (.inl (by decide +kernel)) hno
    · rfl
  have hnews : news c es = [(b!":host", q)] := by
    have hm : ∀ kv, kv ∈ news c es ↔ kv ∈ [(b!":host", q)] := by
      intro kv
      rw [mem_news hg.inv.core, List.mem_singleton]
      constructor
      · exact fun h => hin kv h.1 h.2
      · rintro rfl
        refine ⟨by simp [hesd], ?_⟩
        rw [hkvs]
        rintro (hm | hm)
        · have : ∀ kv ∈ defaultDict, kv.1 = b!":host" → kv.2 = [] := by decide +kernel
          exact hq (this _ hm rfl)
        · obtain ⟨x, -, e⟩ := List.mem_map.1 hm
          cases e
    exact List.perm_singleton.1 ((List.perm_ext_iff_of_nodup (news_nodup hnd) (by simp)).2 hm)
  obtain ⟨x, hx, hxk⟩ := List.mem_map.1 ((hkvs (b!":scheme", b!"https")).2 (.inl (by decide +kernel)))
  have hvin : ve ∈ c.entries := by simp [DeltaBohe.Codec.entries, hcl]
  obtain ⟨c', em, hno⟩ := make_drops (L := L) (ord := id) (fun l => List.Perm.refl _) hg.inv hes hnd (by rw [hnum]; simp [hl]) hcl hnews (by
      have : b!":host" ∈ c.keyMap.keys := (hkeys _).2 (by decide +kernel)
      rw [mem_keyMap] at this
      exact this) hx (by rw [hxk]; simp [hesd]) (fun hi => by
        have := hg.inv.core.idx_inj hx hvin hi
        rw [this, hve] at hxk
        cases hxk)
  obtain ⟨b, eb, -⟩ := DeltaBohe.wire_spec hk h257 (instrs_ok (ord := id) (headers := [(b!":path", p), (b!":scheme", b!"https"), (b!":host", q)]) hg.inv
    (fun l => List.Perm.refl _) hnd hg.next (by rw [hnext]; simp [hl]) (by
      intro kv hkv
      simp only [hesd, List.mem_cons, List.not_mem_nil, or_false] at hkv
      rcases hkv with rfl | rfl | rfl
      · exact ⟨(by decide : ∀ x ∈ b!":path", x < 256), hb p (by simp)⟩
      · exact ⟨by decide, by decide⟩
      · exact ⟨(by decide : ∀ x ∈ b!":host", x < 256), hqb⟩))
  rw [← hesd] at eb
  refine ⟨c, bs, c', b, e, by simp only [DeltaBohe.compress, bind, Except.bind, em, eb, pure, Except.pure], ?_⟩
  rintro ⟨y, hy, -, hyk⟩
  refine hno (List.mem_map.2 ⟨y, hy, ?_⟩)
  rw [hve]
  exact hyk

/-- 961 paths. -/
example : ∃ ps : List Str, ps.Nodup ∧ ps.length = 961 ∧ (∀ p ∈ ps, p.length ≤ 64872) ∧ (∀ p ∈ ps, ∀ x ∈ p, x < 256) ∧ b!"/" ∉ ps ∧
    b!"/new" ∉ b!"/" :: ps := by
  refine ⟨(List.range 961).map fun i => [47, i / 256, i % 256], ?_, by simp, ?_, ?_, ?_, ?_⟩
  · refine List.Nodup.map (fun a b hab => ?_) List.nodup_range
    simp only [List.cons.injEq, and_true, true_and] at hab
    omega
  · intro p hp
    obtain ⟨i, -, rfl⟩ := List.mem_map.1 hp
    simp
  · intro p hp
    obtain ⟨i, hi, rfl⟩ := List.mem_map.1 hp
    rw [List.mem_range] at hi
    intro x hx
    simp only [List.mem_cons, List.not_mem_nil, or_false] at hx
    omega
  · intro hp
    obtain ⟨i, -, h⟩ := List.mem_map.1 hp
    cases h
  · simp

/-! ### C85: the wire format -/

/-- C85.  Values of headers that bohe encodes have neither length nor end: two messages that say different things are sent as the same
bytes. -/
theorem C85_false (L : Libs) (h : Huffman) (hc : IsCoder1 h) (c0 : DeltaBohe.Codec) (h0 : Fresh80 c0) : ∃ i, i < 256 ∧ ∀ x y z : Str,
    x ≠ [] → (∀ a ∈ x ++ y ++ z, a < 256) → x.length + y.length + z.length ≤ 64800 →
    encodeField L b!"accept" x = .ok x → encodeField L b!"accept" (x ++ [0, i] ++ y) = .ok (x ++ [0, i] ++ y) →
    z ≠ b!"get" → encodeField L b!":method" z = .ok z → encodeField L b!":method" (y ++ [0, i] ++ z) = .ok (y ++ [0, i] ++ z) →
    ∃ c1 c2 b, DeltaBohe.compress L h c0 ⟨[(b!"accept", x ++ [0, i] ++ y), (b!":method", z)], id⟩ = .ok (c1, b) ∧
      DeltaBohe.compress L h c0 ⟨[(b!"accept", x), (b!":method", y ++ [0, i] ++ z)], id⟩ = .ok (c2, b) ∧
      DeltaBohe.Spec.Says L [(b!"accept", x), (b!":method", y ++ [0, i] ++ z)] (b!"accept", x) ∧
      ¬ DeltaBohe.Spec.Says L [(b!"accept", x ++ [0, i] ++ y), (b!":method", z)] (b!"accept", x) := by
  obtain ⟨kvs, hp, e0⟩ := h0
  obtain ⟨codes, hk, h257⟩ := hc.codes
  obtain ⟨c0', e0', hi, -, hent, -, hnext, hnum, -, hgen, hkeys, hz⟩ := init_spec hp
  rw [e0] at e0'
  cases e0'
  have hle := initLoop_next kvs e0 le_rfl
  have hidx : ∀ k, k ∈ defaultDict.map (·.1) → ∃ i, keyOf c0 k = some i ∧ i ≤ 63 := by
    intro k hk
    have := (hkeys k).2 hk
    rw [mem_keyMap] at this
    obtain ⟨i, hi'⟩ := Option.isSome_iff_exists.1 this
    refine ⟨i, hi', ?_⟩
    have h1 := hi.core.keyIdx k i hi'
    have h2 := hi.core.keyLe i (by
      by_contra hno
      rw [Dict.get?_none.2 hno] at h1
      cases h1)
    omega
  obtain ⟨im, him, him'⟩ := hidx b!":method" (by decide +kernel)
  obtain ⟨ia, hia, hia'⟩ := hidx b!"accept" (by decide +kernel)
  refine ⟨im, by omega, ?_⟩
  intro x y z hx hby hlen ex1 ex2 hzg ez1 ez2
  have step : ∀ v w : Str, encodeField L b!"accept" v = .ok v → encodeField L b!":method" w = .ok w → v ≠ [] → w ≠ b!"get" →
      (∀ a ∈ v ++ w, a < 256) → v.length ≤ 64872 → w.length ≤ 64872 → v.length + w.length ≤ 65522 →
      ∃ c', DeltaBohe.compress L h c0 ⟨[(b!"accept", v), (b!":method", w)], id⟩ =
        .ok (c', pack (headW ((v.length + w.length) + 6) 1 1234 8 ++
          (natBits 8 3 ++ natBits 8 1 ++ (natBits 16 ia ++ bitsOf v ++ (natBits 16 im ++ bitsOf w))))) := by
    intro v w ev ew hv hw hbw hlv hlw hlvw
    have hes : sentList L [(b!"accept", v), (b!":method", w)] = .ok [(b!"accept", v), (b!":method", w)] := by
      have h1 : orderedParts b!"accept" v = [v] := if_neg (by decide)
      have h2 : orderedParts b!":method" w = [w] := if_neg (by decide)
      simp only [sentList, h1, h2, encList, ev, ew, bind, Except.bind, pure, Except.pure]
      rfl
    have hnv : (b!"accept", v) ∉ c0.entries.map VE.kv := by
      rw [hent, hp.mem_iff]
      have : ∀ kv ∈ defaultDict, kv.1 = b!"accept" → kv.2 = [] := by decide +kernel
      exact fun hm => hv (this _ hm rfl)
    have hnw : (b!":method", w) ∉ c0.entries.map VE.kv := by
      rw [hent, hp.mem_iff]
      have : ∀ kv ∈ defaultDict, kv.1 = b!":method" → kv.2 = b!"get" := by decide +kernel
      exact fun hm => hw (this _ hm rfl)
    have hnd : [(b!"accept", v), (b!":method", w)].Nodup := by
      rw [List.nodup_cons]
      refine ⟨?_, by simp⟩
      rw [List.mem_singleton, Prod.mk.injEq]
      exact fun hm => absurd hm.1 (by decide)
    have hins : instrs id c0 [(b!"accept", v), (b!":method", w)] [(b!"accept", v), (b!":method", w)] =
        { toggl := [], clone := [(ia, v, false), (im, w, false)], kvsto := [] } := by
      unfold instrs
      congr 1
      · rw [List.append_eq_nil_iff]
        constructor
        · rw [List.eq_nil_iff_forall_not_mem]
          intro i him
          obtain ⟨e, he, -, h2, -⟩ := (mem_toggles hi.core _ i).1 him
          simp only [List.mem_cons, List.not_mem_nil, or_false] at h2
          rcases h2 with h2 | h2
          · exact hnv (List.mem_map.2 ⟨e, he, h2⟩)
          · exact hnw (List.mem_map.2 ⟨e, he, h2⟩)
        · rw [List.eq_nil_iff_forall_not_mem]
          intro i him
          obtain ⟨e, he, -, h3, -⟩ := (mem_turnOffs (fun l => List.Perm.refl _) _ i).1 him
          rw [entries_mapE, opened_entries] at he
          obtain ⟨e', he', rfl⟩ := List.mem_map.1 he
          rw [touch_isSome, hgen e' he'] at h3
          cases h3
      · rw [clones_eq]
        simp only [List.filter_cons, hnv, hnw, hia, him, not_false_eq_true, decide_true, Option.isSome_some, Bool.and_self, if_true,
          List.filter_nil, List.map_cons, List.map_nil, Option.getD_some]
        congr
      · rw [kvstos_eq]
        simp only [List.filter_cons, hia, him, Option.isNone_some, Bool.false_eq_true, if_false, List.filter_nil, List.map_nil]
    have hgood := init_good hp (U := defaultDict ++ [(b!"accept", v), (b!":method", w)]) (fun kv hkv => List.mem_append_left _ hkv) e0
    have hnl : namesLen (defaultDict ++ [(b!"accept", v), (b!":method", w)]) ≤ 664 := by
      have h0 : (defaultDict.map (·.1)).dedup = defaultDict.map (·.1) := List.dedup_eq_self.2 (by decide +kernel)
      have h1 : ((defaultDict.map (·.1)).dedup.map List.length).sum = 664 := by
        rw [h0]
        decide +kernel
      rw [← h1]
      refine sum_le_of_subset (List.nodup_dedup _) ?_
      intro k hk
      rw [List.mem_dedup, List.map_append, List.mem_append] at hk
      rcases hk with hk | hk
      · exact hk
      · simp only [List.map_cons, List.map_nil, List.mem_cons, List.not_mem_nil, or_false] at hk
        rcases hk with rfl | rfl <;> decide +kernel
    obtain ⟨c', em⟩ := hgood.total (L := L) (ord := id) (fun l => List.Perm.refl _) hes hnd (fun kv hkv => List.mem_append_right _ hkv)
      (by
        rw [List.length_append]
        have : defaultDict.length = 63 := by decide
        simp only [List.length_cons, List.length_nil]
        omega) (by
        intro kv hkv
        simp only [List.mem_cons, List.not_mem_nil, or_false] at hkv
        rcases hkv with rfl | rfl <;> simp only <;> omega)
    rw [hins] at em
    obtain ⟨b, eb, -, -, hbytes⟩ := DeltaBohe.wire_spec hk h257 (g := { toggl := [], clone := [(ia, v, false), (im, w, false)], kvsto := [] })
      ⟨by simp, by
        intro x hx
        simp only [List.mem_cons, List.not_mem_nil, or_false] at hx
        rcases hx with rfl | rfl
        · exact ⟨by simp only; omega, fun a ha => hbw a (by simp [show a ∈ v from ha])⟩
        · exact ⟨by simp only; omega, fun a ha => hbw a (by simp [show a ∈ w from ha])⟩, by simp⟩
    have hpay : payloadW codes { toggl := [], clone := [(ia, v, false), (im, w, false)], kvsto := [] } =
        natBits 8 3 ++ natBits 8 1 ++ (natBits 16 ia ++ bitsOf v ++ (natBits 16 im ++ bitsOf w)) := by
      have ht : Delta1.toggleRanges [] = ⟨[], []⟩ := by decide
      simp [payloadW, blockW, ht, opW, strW]
    have hplen : (payloadW codes { toggl := [], clone := [(ia, v, false), (im, w, false)], kvsto := [] }).length = 8 * (v.length + w.length + 6) := by
      rw [hpay]
      simp only [List.length_append, natBits_length, bitsOf_length]
      omega
    refine ⟨c', ?_⟩
    simp only [DeltaBohe.compress, bind, Except.bind, em, eb, pure, Except.pure]
    rw [hbytes (by rw [hplen]; omega), hplen, hpay, Nat.mul_div_cancel_left _ (by omega)]
  have hbits : natBits 16 im = bitsOf [0, im] := by
    have : ∀ i < 64, natBits 16 i = bitsOf [0, i] := by decide +kernel
    exact this im (by omega)
  obtain ⟨c1, e1⟩ := step (x ++ [0, im] ++ y) z ex2 ez1 (by simp) hzg (by
    intro a ha
    simp only [List.mem_append, List.mem_cons, List.not_mem_nil, or_false] at ha hby
    rcases ha with ((ha | rfl | rfl) | ha) | ha
    · exact hby a (.inl (.inl ha))
    · omega
    · omega
    · exact hby a (.inl (.inr ha))
    · exact hby a (.inr ha)) (by simp only [List.length_append, List.length_cons, List.length_nil]; omega) (by omega)
    (by simp only [List.length_append, List.length_cons, List.length_nil]; omega)
  obtain ⟨c2, e2⟩ := step x (y ++ [0, im] ++ z) ex1 ez2 hx (by
    intro hget
    have : 0 ∈ b!"get" := by rw [← hget]; simp
    exact absurd this (by decide)) (by
    intro a ha
    simp only [List.mem_append, List.mem_cons, List.not_mem_nil, or_false] at ha hby
    rcases ha with ha | (ha | rfl | rfl) | ha
    · exact hby a (.inl (.inl ha))
    · exact hby a (.inl (.inr ha))
    · omega
    · omega
    · exact hby a (.inr ha)) (by omega) (by simp only [List.length_append, List.length_cons, List.length_nil]; omega)
    (by simp only [List.length_append, List.length_cons, List.length_nil]; omega)
  have hl : x.length + (y ++ [0, im] ++ z).length = (x ++ [0, im] ++ y).length + z.length := by
    simp only [List.length_append, List.length_cons, List.length_nil]
    omega
  have hsame : natBits 16 ia ++ bitsOf (x ++ [0, im] ++ y) ++ (natBits 16 im ++ bitsOf z) =
      natBits 16 ia ++ bitsOf x ++ (natBits 16 im ++ bitsOf (y ++ [0, im] ++ z)) := by
    simp only [hbits, bitsOf_append, List.append_assoc]
  rw [hl, ← hsame] at e2
  have hpa : ∀ v, DeltaBohe.Spec.parts b!"accept" v = [v] := fun v => if_neg (by decide)
  refine ⟨c1, c2, _, e1, ?_, ⟨x, by simp, x, by rw [hpa]; simp, ex1⟩, ?_⟩
  · exact e2
  · rintro ⟨v, hv, a, ha, e⟩
    simp only [List.mem_cons, Prod.mk.injEq, true_and, List.not_mem_nil, or_false] at hv
    rcases hv with rfl | ⟨hv, -⟩
    · rw [hpa, List.mem_singleton] at ha
      subst ha
      rw [ex2] at e
      have := congrArg (fun r : Py Str => r.toOption.map List.length) e
      simp [Except.toOption] at this
    · exact absurd hv (by decide)

/-- The hypotheses of C85, for libraries that take these values for what they are. -/
example (i : Nat) (hi : i < 256) : encodeField lib80 b!"accept" b!"x" = .ok b!"x" ∧
    encodeField lib80 b!"accept" (b!"x" ++ [0, i] ++ b!"y") = .ok (b!"x" ++ [0, i] ++ b!"y") ∧ b!"z" ≠ b!"get" ∧
    encodeField lib80 b!":method" b!"z" = .ok b!"z" ∧ encodeField lib80 b!":method" (b!"y" ++ [0, i] ++ b!"z") = .ok (b!"y" ++ [0, i] ++ b!"z") := by
  revert i
  decide +kernel

/-! ### C86: a crumb twice -/

theorem sublist_count {es : List Hdr} {kv : Hdr} (h : [kv, kv].Sublist es) : 2 ≤ es.count kv := by
  have := h.count_le kv
  simpa using this

/-- Crumbs with the same code. -/
theorem sent_twice {L : Libs} {v w : Str} (hw : [Except.ok w, Except.ok w].Sublist ((DeltaBohe.Spec.parts b!"cookie" v).map (encodeField L b!"cookie"))) :
    ∀ {hs es : List Hdr}, (b!"cookie", v) ∈ hs → sentList L hs = .ok es → 2 ≤ es.count (b!"cookie", w) := by
  intro hs
  induction hs with
  | nil => intro es hm; cases hm
  | cons p hs ih =>
    intro es hm hes
    obtain ⟨k', v'⟩ := p
    simp only [sentList, bind, Except.bind] at hes
    cases h1 : encList L k' (orderedParts k' v') with
    | error x => rw [h1] at hes; cases hes
    | ok a =>
      rw [h1] at hes
      simp only at hes
      cases h2 : sentList L hs with
      | error x => rw [h2] at hes; cases hes
      | ok b =>
        rw [h2] at hes
        cases hes
        rw [List.count_append]
        rcases List.mem_cons.1 hm with hm | hm
        · cases hm
          have hc : a.count (b!"cookie", w) = ((orderedParts b!"cookie" v).map (encodeField L b!"cookie")).count (.ok w) := by
            have := encList_ok h1
            clear h1 h2 hw hm
            generalize orderedParts b!"cookie" v = xs at this
            induction this with
            | nil => rfl
            | cons hd _ ih =>
              obtain ⟨hd1, hd2⟩ := hd
              rw [List.map_cons, List.count_cons, List.count_cons, ih, hd2]
              congr 1
              rename_i x kv _ _ _
              by_cases hx : kv.2 = w
              · have : kv = (b!"cookie", w) := Prod.ext hd1 hx
                simp [this]
              · have h3 : kv ≠ (b!"cookie", w) := fun h => hx (by rw [h])
                have h4 : (Except.ok kv.2 : Py Str) ≠ .ok w := fun h => hx (Except.ok.inj h)
                simp [h3, h4]
          have h3 := hw.count_le (.ok w)
          rw [← ((parts_perm b!"cookie" v).map (encodeField L b!"cookie")).count_eq, ← hc] at h3
          simp only [List.count_cons_self, List.count_nil] at h3
          omega
        · have := ih hm h2
          omega

/-- C86.  A cookie that has a crumb twice which is not in the table is refused, however short the session: the same header would be stored twice. -/
theorem C86_raises (L : Libs) (h : Huffman) (c0 : DeltaBohe.Codec) (h0 : Fresh80 c0) (U : List Hdr) (hU : Universe U) (ms : List DeltaBohe.Message)
    (hv : ∀ x ∈ ms, Valid L U x) (c : DeltaBohe.Codec) (bs : List Str) (e : DeltaBohe.compressAll L h ms c0 = .ok (c, bs))
    (m : DeltaBohe.Message) (ho : ∀ l, (m.ord l).Perm l) (hen : DeltaBohe.Spec.Encodable L m.headers) (v w : Str) (hm : (b!"cookie", v) ∈ m.headers)
    (hw : [Except.ok w, Except.ok w].Sublist ((DeltaBohe.Spec.parts b!"cookie" v).map (encodeField L b!"cookie")))
    (hnew : (b!"cookie", w) ∉ U) (hroom : U.length + (m.headers.map fun kv => (DeltaBohe.Spec.parts kv.1 kv.2).length).sum ≤ 1024) :
    DeltaBohe.compress L h c m = .error .name ∨ DeltaBohe.compress L h c m = .error .standard := by
  obtain ⟨kvs, hp, e0⟩ := h0
  have hg0 := init_good hp hU.1 e0
  have hg := Good.session hU.2 ms hg0 hv e
  obtain ⟨hkn, -⟩ := session_known hU.2 ms hg0 hv e
  obtain ⟨c0', e0', -, -, -, -, -, -, -, -, hkeys, -⟩ := init_spec hp
  rw [e0] at e0'
  cases e0'
  obtain ⟨es, hes⟩ := sentList_total hen
  have hlen := sentList_length hes
  have hnum : c.numVals ≤ U.length := by
    have := hg.room (es := []) .nil (by simp)
    have h0 : (news c []).length = 0 := rfl
    rw [h0] at this
    simpa using this
  have hkey : (keyOf c b!"cookie").isSome := by
    rw [← mem_keyMap]
    exact hkn _ ((hkeys _).2 (by decide +kernel))
  rcases make_dup ho hg.inv hes (sent_twice hw hm hes) (fun hx => hnew (hg.sub _ hx)) hkey (by unfold maxVals; omega) with e1 | e1
  · left; simp only [DeltaBohe.compress, bind, Except.bind, e1]
  · right; simp only [DeltaBohe.compress, bind, Except.bind, e1]

/-- The first message, with the crumb "c" twice. -/
example (h : Huffman) (c0 : DeltaBohe.Codec) (h0 : Fresh80 c0) :
    DeltaBohe.compress lib80 h c0 ⟨[(b!"cookie", b!"c; c")], id⟩ = .error .name ∨
      DeltaBohe.compress lib80 h c0 ⟨[(b!"cookie", b!"c; c")], id⟩ = .error .standard := by
  refine C86_raises lib80 h c0 h0 defaultDict ⟨fun _ h => h, by decide⟩ [] (by simp) c0 [] rfl _ (fun l => List.Perm.refl _) ?_ b!"c; c" [95, 1, 99, 0]
    (by simp) ?_ (by decide +kernel) (by decide +kernel)
  · intro k v hkv x hx
    simp only [List.mem_singleton, Prod.mk.injEq] at hkv
    obtain ⟨rfl, rfl⟩ := hkv
    have hp : DeltaBohe.Spec.parts b!"cookie" b!"c; c" = [b!"c", b!"c"] := by decide
    rw [hp] at hx
    simp only [List.mem_cons, List.not_mem_nil, or_false, or_self] at hx
    subst hx
    exact ⟨[95, 1, 99, 0], by decide +kernel⟩
  · have : (DeltaBohe.Spec.parts b!"cookie" b!"c; c").map (encodeField lib80 b!"cookie") = [.ok [95, 1, 99, 0], .ok [95, 1, 99, 0]] := by
      decide +kernel
    rw [this]

end Verif.Props
