import Verif.Delta1.GroupStep
import Verif.Props.Delta1
import Verif.Props.Delta2Repeat
/-
Property theorems about what a message of delta, the first compressor, does to the entries and the header groups, and about when it
costs nothing (C139).
-/
namespace Verif.Props
open Verif Verif.Bits Verif.Huff Verif.Delta1 Verif.Lib Verif.Lib.Spec
open Verif.Delta2 (headersSet)

/-! ### C139 -/

/-- A codec has an entry for the header. -/
def EntryFor (c : Delta1.Codec) (x : Hdr) : Prop := ∃ ve ∈ c.store.lru, ve.key = x.1 ∧ ve.val = x.2

/-- The index of an entry for the header is in the group. -/
def GroupHas1 (c : Delta1.Codec) (g : Nat) (x : Hdr) : Prop :=
  ∃ l, c.groups.get? g = some l ∧ ∃ ve ∈ c.store.lru, ve.idx ∈ l ∧ ve.key = x.1 ∧ ve.val = x.2

/-- What a message has that is stored: its headers, cookies and values with NULs split, but `:path` and `referer`. -/
def Kept1 (headers : Dict Str Str) (x : Hdr) : Prop := Sends headers x ∧ x.1 ≠ b!":path" ∧ x.1 ≠ b!"referer"

theorem entryFor_iff {c : Delta1.Codec} {x : Hdr} : EntryFor c x ↔ Held c x := by
  simp only [EntryFor, Held, VE.hdr, Prod.ext_iff]

theorem groupHas1_iff {c : Delta1.Codec} (hi : Delta1.Inv c) {g : Nat} {x : Hdr} : GroupHas1 c g x ↔ InGroup c g x := by
  constructor
  · rintro ⟨l, hl, ve, hv, him, h1, h2⟩
    exact ⟨ve, hv, Prod.ext h1 h2, (hi.hist ve hv g).2 ⟨l, hl, him⟩⟩
  · rintro ⟨ve, hv, rfl, hg⟩
    obtain ⟨l, hl, him⟩ := (hi.hist ve hv g).1 hg
    exact ⟨l, hl, ve, hv, him, rfl, rfl⟩

theorem kept1_iff {headers : Dict Str Str} {x : Hdr} : Kept1 headers x ↔ x ∈ headersSet headers ∧ isEref x = false := by
  simp only [Kept1, sends_iff, isEref, decide_eq_false_iff_not, not_or]

theorem ready_fresh {u : Delta1.Setup} {c : Delta1.Compressor} {d : Delta1.Codec} (hf : Fresh1 u c d) : Ready u c := by
  obtain ⟨h0, hd, h1, h2, h3, h4⟩ := fresh1_ok hf
  refine ⟨h1, h2, h3, h4, ?_, ?_, ?_⟩
  · rw [h0, hd]; exact List.nodup_nil
  · rw [h0, hd]; intro ve hv; cases hv
  · rw [h0, hd]; rfl

/-- C139.  Whatever was sent before, if there is room for the headers of the message that have no entry: after the message there are
the old entries and one for each of its headers that are stored.  A header that is not one of these is in the groups it was in, but
not in that of the host.  A header that is one of these is in a single group: that of the host, or a group it was in before. -/
theorem C139_message (u : Delta1.Setup) (hu : Processor1 u) (c0 : Delta1.Compressor) (d : Delta1.Codec) (hf : Fresh1 u c0 d)
    (before : List Delta1.Message) (hb : ∀ m ∈ before, Delta1.MessageOk u m) (c : Delta1.Compressor) (blobs : List Str)
    (hc : Delta1.compressAll u before c0 = .ok (c, blobs)) (m : Delta1.Message) (hm : Delta1.MessageOk u m) (c' : Delta1.Compressor)
    (blob : Str) (hx : Delta1.compress u c m = .ok (c', blob)) (new : List Hdr)
    (hnew : ∀ x, Kept1 m.headers x → ¬ EntryFor c.codec x → x ∈ new)
    (hroom : ((c.codec.store.lru.length + new.length : Nat) : Int) ≤ u.cfg.maxEntries) :
    ∃ gid, c'.hosts.get? (u.norm m.host) = some gid ∧
      (∀ x, EntryFor c'.codec x ↔ EntryFor c.codec x ∨ Kept1 m.headers x) ∧
      (c'.codec.store.lru.map fun ve => (ve.key, ve.val)).Nodup ∧
      (∀ x, ¬ Kept1 m.headers x → ∀ g, GroupHas1 c'.codec g x ↔ g ≠ gid ∧ GroupHas1 c.codec g x) ∧
      (∀ x, Kept1 m.headers x → ∃ last, (last = gid ∨ GroupHas1 c.codec last x) ∧ ∀ g, GroupHas1 c'.codec g x ↔ g = last) := by
  obtain ⟨codes, hk, h257⟩ := hu.coder.codes
  have hr := session_ready hu.order hk h257 before hb (ready_fresh hf) hc
  obtain ⟨hr', gid, -, e2, -, -, -, -, hs⟩ := compress_groups hu.order hk h257 hr hm hx
  have h := hs new (fun kv k1 k2 k3 => hnew kv (kept1_iff.2 ⟨k1, k2⟩) (fun h => k3 (entryFor_iff.1 h))) (by rw [hr.max]; exact hroom)
  refine ⟨gid, e2, fun x => ?_, h.once, fun x hx g => ?_, fun x hx => ?_⟩
  · rw [entryFor_iff, entryFor_iff, kept1_iff, h.held]
  · rw [groupHas1_iff hr'.inv, groupHas1_iff hr.inv]
    exact h.rest x (fun hh => hx (kept1_iff.2 hh)) g
  · obtain ⟨k1, k2⟩ := kept1_iff.1 hx
    obtain ⟨last, l1, l2⟩ := h.sent x k1 k2
    exact ⟨last, l1.imp id (groupHas1_iff hr.inv).2, fun g => by rw [groupHas1_iff hr'.inv]; exact l2 g⟩

/-- C139.  Whatever was sent before, a frame has at least 9 bytes, and it has just 9, the head and nothing else, if and only if the
group of the host has exactly the headers of the message; a `:path` or `referer` is in no group. -/
theorem C139_free (u : Delta1.Setup) (hu : Processor1 u) (c0 : Delta1.Compressor) (d : Delta1.Codec) (hf : Fresh1 u c0 d)
    (before : List Delta1.Message) (hb : ∀ m ∈ before, Delta1.MessageOk u m) (c : Delta1.Compressor) (blobs : List Str)
    (hc : Delta1.compressAll u before c0 = .ok (c, blobs)) (m : Delta1.Message) (hm : Delta1.MessageOk u m) (c' : Delta1.Compressor)
    (blob : Str) (hx : Delta1.compress u c m = .ok (c', blob)) :
    (∃ gid, c'.hosts.get? (u.norm m.host) = some gid ∧ 9 ≤ blob.length ∧
      (blob.length = 9 ↔ ∀ x, Sends m.headers x ↔ GroupHas1 c.codec gid x)) ∧
    ∀ g x, GroupHas1 c.codec g x → x.1 ≠ b!":path" ∧ x.1 ≠ b!"referer" := by
  obtain ⟨codes, hk, h257⟩ := hu.coder.codes
  have hr := session_ready hu.order hk h257 before hb (ready_fresh hf) hc
  obtain ⟨hr', gid, -, e2, -, e4, e5, -⟩ := compress_groups hu.order hk h257 hr hm hx
  refine ⟨⟨gid, e2, e4, ?_⟩, fun g x hg => ?_⟩
  · rw [e5]
    simp only [sends_iff, groupHas1_iff hr.inv]
  · obtain ⟨ve, hv, rfl, -⟩ := (groupHas1_iff hr.inv).1 hg
    have := hr.noEref ve hv
    simpa only [isEref, decide_eq_false_iff_not, not_or] using this

theorem alone_fresh {u : Delta1.Setup} (hu : Processor1 u) {c0 : Delta1.Compressor} {d : Delta1.Codec} (hf : Fresh1 u c0 d) (host : Str)
    (before : List Delta1.Message) (hb : ∀ m ∈ before, Delta1.MessageOk u m ∧ u.norm m.host = u.norm host) {c : Delta1.Compressor}
    {blobs : List Str} (hc : Delta1.compressAll u before c0 = .ok (c, blobs)) :
    ∀ g, g ≠ (Delta1.groupOf u c host).2 → glen c.codec g = 0 := by
  obtain ⟨codes, hk, h257⟩ := hu.coder.codes
  have h0 : ∀ g, glen c0.codec g = 0 := by
    obtain ⟨h0, hd, -⟩ := fresh1_ok hf
    intro g
    rw [h0, hd]
    rfl
  cases before with
  | nil =>
    cases hc
    exact fun g _ => h0 g
  | cons b bs =>
    simp only [Delta1.compressAll, bind, Except.bind] at hc
    split at hc
    · cases hc
    rename_i v hv
    obtain ⟨c1, blob⟩ := v
    dsimp only at hc
    split at hc
    · cases hc
    rename_i w hw
    obtain ⟨c2, blobs'⟩ := w
    simp only [pure, Except.pure, Except.ok.injEq, Prod.mk.injEq] at hc
    obtain ⟨rfl, rfl⟩ := hc
    obtain ⟨hr', gid, -, e2, -, -, -, e6, -⟩ := compress_groups hu.order hk h257 (ready_fresh hf) (hb b (by simp)).1 hv
    rw [(hb b (by simp)).2] at e2
    obtain ⟨f1, f2⟩ := session_alone hu.order hk h257 (u.norm host) gid bs (fun m h => hb m (by simp [h])) hr' e2 (fun g hg => by
      have := e6 g hg
      rw [h0] at this
      omega) hw
    have : Delta1.groupOf u c2 host = (c2, gid) := by
      unfold Delta1.groupOf
      rw [f1]
    rw [this]
    exact f2

/-- C139.  If all messages were to one host, and there was room for the headers of the last one that had no entry: the next message to
the host takes 9 bytes if and only if its headers are those of the last one, none of them a `:path` or `referer`. -/
theorem C139_repeat (u : Delta1.Setup) (hu : Processor1 u) (c0 : Delta1.Compressor) (d : Delta1.Codec) (hf : Fresh1 u c0 d)
    (host : Str) (before : List Delta1.Message) (hb : ∀ m ∈ before, Delta1.MessageOk u m ∧ u.norm m.host = u.norm host)
    (c : Delta1.Compressor) (blobs : List Str) (hc : Delta1.compressAll u before c0 = .ok (c, blobs)) (m m' : Delta1.Message)
    (hm : Delta1.MessageOk u m ∧ u.norm m.host = u.norm host) (hm' : Delta1.MessageOk u m' ∧ u.norm m'.host = u.norm host)
    (c' c'' : Delta1.Compressor) (blob blob' : Str) (hx : Delta1.compress u c m = .ok (c', blob))
    (hx' : Delta1.compress u c' m' = .ok (c'', blob')) (new : List Hdr)
    (hnew : ∀ x, Kept1 m.headers x → ¬ EntryFor c.codec x → x ∈ new)
    (hroom : ((c.codec.store.lru.length + new.length : Nat) : Int) ≤ u.cfg.maxEntries) :
    blob'.length = 9 ↔ ∀ x, Sends m'.headers x ↔ Kept1 m.headers x := by
  obtain ⟨codes, hk, h257⟩ := hu.coder.codes
  have hr := session_ready hu.order hk h257 before (fun m h => (hb m h).1) (ready_fresh hf) hc
  have hz := alone_fresh hu hf m.host before (fun x h => ⟨(hb x h).1, (hb x h).2.trans hm.2.symm⟩) hc
  obtain ⟨hr', gid, e1, e2, e3, -, -, -, hs⟩ := compress_groups hu.order hk h257 hr hm.1 hx
  obtain ⟨-, gid', f1, -, -, -, f5, -⟩ := compress_groups hu.order hk h257 hr' hm'.1 hx'
  have h := hs new (fun kv k1 k2 k3 => hnew kv (kept1_iff.2 ⟨k1, k2⟩) (fun h => k3 (entryFor_iff.1 h))) (by rw [hr.max]; exact hroom)
  rw [← e1] at hz
  have hgid : gid' = gid := by
    rw [f1]
    unfold Delta1.groupOf
    rw [hm'.2, ← hm.2, e2]
  subst hgid
  rw [f5]
  refine forall_congr' fun x => ?_
  rw [sends_iff, kept1_iff]
  have hin : InGroup c'.codec gid' x ↔ x ∈ headersSet m.headers ∧ isEref x = false := by
    constructor
    · intro hg
      by_contra hn
      exact ((h.rest x hn gid').1 hg).1 rfl
    · rintro ⟨k1, k2⟩
      obtain ⟨last, l1, l2⟩ := h.sent x k1 k2
      rw [l2]
      rcases l1 with l1 | l1
      · exact l1.symm
      · by_contra hne
        have h0 := hz last (fun h => hne h.symm)
        obtain ⟨l, hl, ve, _, him, _⟩ := (groupHas1_iff hr.inv).2 l1
        simp only [glen, hl, Option.getD_some, List.length_eq_zero_iff] at h0
        rw [h0] at him
        cases him
  rw [hin]

/-- C139.  Whatever was sent before, of two messages one after the other, to hosts with different groups and with a header in
common, one takes more than 9 bytes. -/
theorem C139_shared (u : Delta1.Setup) (hu : Processor1 u) (hmax : 1 ≤ u.cfg.maxEntries) (c0 : Delta1.Compressor) (d : Delta1.Codec)
    (hf : Fresh1 u c0 d) (before : List Delta1.Message) (hb : ∀ m ∈ before, Delta1.MessageOk u m) (c : Delta1.Compressor)
    (blobs : List Str) (hc : Delta1.compressAll u before c0 = .ok (c, blobs)) (m m' : Delta1.Message) (hm : Delta1.MessageOk u m)
    (hm' : Delta1.MessageOk u m') (c' c'' : Delta1.Compressor) (blob blob' : Str) (hx : Delta1.compress u c m = .ok (c', blob))
    (hx' : Delta1.compress u c' m' = .ok (c'', blob'))
    (hne : c''.hosts.get? (u.norm m.host) ≠ c''.hosts.get? (u.norm m'.host)) (x : Hdr) (h1 : Sends m.headers x)
    (h2 : Sends m'.headers x) : 9 < blob.length ∨ 9 < blob'.length := by
  obtain ⟨codes, hk, h257⟩ := hu.coder.codes
  have hr := session_ready hu.order hk h257 before hb (ready_fresh hf) hc
  obtain ⟨hr', gid, e1, e2, e3, e4, e5, -, hs⟩ := compress_groups hu.order hk h257 hr hm hx
  obtain ⟨-, gid', f1, f2, f3, f4, f5, -⟩ := compress_groups hu.order hk h257 hr' hm' hx'
  by_contra hn
  rw [not_or] at hn
  have b1 := e5.1 (by omega)
  have b2 := f5.1 (by omega)
  rw [sends_iff] at h1 h2
  have hdiff : gid ≠ gid' := by
    rintro rfl
    apply hne
    rw [f2, f3]
    unfold Delta1.groupOf
    split
    · rw [e2]
    · rename_i hnone
      dsimp only
      rw [Dict.get?_set]
      split
      · rename_i he
        rw [f1]
        unfold Delta1.groupOf
        rw [hnone]
      · exact e2
  have hlen : (c.codec.store.lru.length : Int) ≤ u.cfg.maxEntries := by
    obtain ⟨h0, hd, g1, g2, g3, g4⟩ := fresh1_ok hf
    obtain ⟨-, -, hl, -⟩ := Delta1.session_spec hu.order hk h257 before hb g1 g2 g3 g4 hc
    rw [h0, hd] at hl
    simp only [initStore, List.length_nil] at hl
    omega
  have h := hs [] (fun kv k1 _ k3 => absurd ((b1 kv).1 k1).held k3) (by rw [hr.max]; simpa using hlen)
  have i1 := (b1 x).1 h1
  have i2 := (b2 x).1 h2
  have her : isEref x = false := by
    obtain ⟨ve, hv, rfl, -⟩ := i1
    exact hr.noEref ve hv
  obtain ⟨last, l1, l2⟩ := h.sent x h1 her
  have hl := (l2 gid').1 i2
  rw [← hl] at l1
  rcases l1 with l1 | l1
  · exact hdiff l1.symm
  · obtain ⟨l, hl1, ve, hv, him, hk1, hk2⟩ := (groupHas1_iff hr.inv).2 i1
    obtain ⟨l', hl2, ve', hv', him', hk1', hk2'⟩ := (groupHas1_iff hr.inv).2 l1
    have : ve = ve' := hr.once.eq hv hv' (Prod.ext (hk1.trans hk1'.symm) (hk2.trans hk2'.symm))
    subst this
    exact hdiff (C70_single u hu c0 d hf before hb c blobs hc gid gid' l l' hl1 hl2 ve.idx him him')

/-- How many entries there are before the last two messages, the lengths of these, whether they belong to different groups, and the
groups in the end. -/
def runTwo1 (mb me : Int) (before : List Delta1.Message) (m m' : Delta1.Message) :
    Py (Nat × List Nat × Bool × List (Nat × List Nat)) := do
  let h ← Delta1.huffman oldRequestTable
  let d ← Delta1.Codec.init (setup1 h mb me).staticKey (setup1 h mb me).cfg
  let (c, _) ← Delta1.compressAll (setup1 h mb me) before { codec := d }
  let (c', b) ← Delta1.compress (setup1 h mb me) c m
  let (c'', b') ← Delta1.compress (setup1 h mb me) c' m'
  pure (c.codec.store.lru.length, [b.length, b'.length], decide (c''.hosts.get? m.host ≠ c''.hosts.get? m'.host), c''.codec.groups)

theorem runTwo1_spec {mb me : Int} {before : List Delta1.Message} {m m' : Delta1.Message}
    {r : Nat × List Nat × Bool × List (Nat × List Nat)} (h : (runTwo1 mb me before m m').toOption = some r) :
    ∃ u c0 d c blobs c' blob c'' blob', Processor1 u ∧ Fresh1 u c0 d ∧ u.cfg = ⟨mb, me⟩ ∧ u.staticKey = b!"clone" ∧ u.norm = id ∧
      Delta1.compressAll u before c0 = .ok (c, blobs) ∧ Delta1.compress u c m = .ok (c', blob) ∧
      Delta1.compress u c' m' = .ok (c'', blob') ∧ c.codec.store.lru.length = r.1 ∧ [blob.length, blob'.length] = r.2.1 ∧
      decide (c''.hosts.get? m.host ≠ c''.hosts.get? m'.host) = r.2.2.1 := by
  obtain ⟨hu, e, hc⟩ := coder1_shipped oldRequestTable (.inl rfl)
  simp only [runTwo1, bind, Except.bind, e, codec_init] at h
  split at h
  · cases h
  rename_i v hv
  obtain ⟨c, blobs⟩ := v
  simp only at h
  split at h
  · cases h
  rename_i v1 hv1
  obtain ⟨c', b⟩ := v1
  simp only at h
  split at h
  · cases h
  rename_i v2 hv2
  obtain ⟨c'', b'⟩ := v2
  cases h
  exact ⟨setup1 hu mb me, _, _, c, blobs, c', b, c'', b', setup1_ok hc mb me, ⟨codec_init _ _, rfl⟩, rfl, rfl, rfl, hv, hv1, hv2, rfl, rfl, rfl⟩

/-- A request without a path. -/
def noPath (host agent : Str) : Delta1.Message := ⟨[(b!"user-agent", agent), (b!"cookie", b!"x=1; y=2")], host, plain1⟩

theorem noPath_ok {u : Delta1.Setup} (hu : u.staticKey = b!"clone") (host : Str) (agent : Str) (ha : agent = b!"m" ∨ agent = b!"n") :
    Delta1.MessageOk u (noPath host agent) := by
  rcases ha with rfl | rfl
  · exact ⟨plain1_ok, by change ∀ kv ∈ [(b!"user-agent", b!"m"), (b!"cookie", b!"x=1; y=2")], _; decide +kernel,
      by rw [hu]; change ∀ kv ∈ [(b!"user-agent", b!"m"), (b!"cookie", b!"x=1; y=2")], _; decide +kernel,
      by change (headersSet [(b!"user-agent", b!"m"), (b!"cookie", b!"x=1; y=2")]).length ≤ 128; decide +kernel⟩
  · exact ⟨plain1_ok, by change ∀ kv ∈ [(b!"user-agent", b!"n"), (b!"cookie", b!"x=1; y=2")], _; decide +kernel,
      by rw [hu]; change ∀ kv ∈ [(b!"user-agent", b!"n"), (b!"cookie", b!"x=1; y=2")], _; decide +kernel,
      by change (headersSet [(b!"user-agent", b!"n"), (b!"cookie", b!"x=1; y=2")]).length ≤ 128; decide +kernel⟩

/-- Two requests to one host that differ in one header, and the second one again, which is free. -/
theorem noPath_run : (runTwo1 16384 4096 [noPath b!"a" b!"m"] (noPath b!"a" b!"n") (noPath b!"a" b!"n")).toOption.map
    (fun r => (r.1, r.2.1, r.2.2.2)) = some (3, [19, 9], [(1, [76, 77, 78])]) := by decide +kernel

/-- All hypotheses of `C139_message`, `C139_free` and `C139_repeat` hold of it. -/
example : ∃ u c0 d c blobs c' blob c'' blob', Processor1 u ∧ Fresh1 u c0 d ∧
    (∀ m ∈ [noPath b!"a" b!"m"], Delta1.MessageOk u m ∧ u.norm m.host = u.norm b!"a") ∧
    Delta1.compressAll u [noPath b!"a" b!"m"] c0 = .ok (c, blobs) ∧ Delta1.MessageOk u (noPath b!"a" b!"n") ∧
    Delta1.compress u c (noPath b!"a" b!"n") = .ok (c', blob) ∧ Delta1.compress u c' (noPath b!"a" b!"n") = .ok (c'', blob') ∧
    (∀ x, Kept1 (noPath b!"a" b!"n").headers x → x ∈ [(b!"user-agent", b!"n"), (b!"cookie", b!"x=1"), (b!"cookie", b!"y=2")]) ∧
    ((c.codec.store.lru.length + 3 : Nat) : Int) ≤ u.cfg.maxEntries ∧ blob'.length = 9 := by
  have h := noPath_run
  rw [Option.map_eq_some_iff] at h
  obtain ⟨r, h, hr⟩ := h
  simp only [Prod.mk.injEq] at hr
  obtain ⟨u, c0, d, c, blobs, c', blob, c'', blob', h1, h2, h3, h4, h5, h6, h7, h8, h9, h10, h11⟩ := runTwo1_spec h
  refine ⟨u, c0, d, c, blobs, c', blob, c'', blob', h1, h2, ?_, h6, noPath_ok h4 _ _ (.inr rfl), h7, h8, ?_, ?_, ?_⟩
  · intro m hm
    rw [List.mem_singleton] at hm
    subst hm
    exact ⟨noPath_ok h4 _ _ (.inl rfl), rfl⟩
  · intro x hx
    have hx := (kept1_iff.1 hx).1
    have : headersSet (noPath b!"a" b!"n").headers = [(b!"user-agent", b!"n"), (b!"cookie", b!"x=1"), (b!"cookie", b!"y=2")] := by
      decide +kernel
    rw [this] at hx
    exact hx
  · rw [h9, hr.1, h3]
    decide
  · rw [hr.2.1] at h10
    simp only [List.cons.injEq] at h10
    exact h10.2.1

/-- The same request to two hosts in turn: that to the first host is never free, for its group is emptied each time. -/
theorem noPath_turns : (runTwo1 16384 4096 [noPath b!"a" b!"m", noPath b!"b" b!"m", noPath b!"a" b!"m", noPath b!"b" b!"m"]
    (noPath b!"a" b!"m") (noPath b!"b" b!"m")).toOption.map
    id = some (3, [15, 9], true, [(1, []), (2, [84, 85, 86])]) := by decide +kernel

/-- All hypotheses of `C139_shared` hold of it. -/
example : ∃ u c0 d c blobs c' blob c'' blob', Processor1 u ∧ 1 ≤ u.cfg.maxEntries ∧ Fresh1 u c0 d ∧
    (∀ m ∈ [noPath b!"a" b!"m", noPath b!"b" b!"m", noPath b!"a" b!"m", noPath b!"b" b!"m"], Delta1.MessageOk u m) ∧
    Delta1.compressAll u [noPath b!"a" b!"m", noPath b!"b" b!"m", noPath b!"a" b!"m", noPath b!"b" b!"m"] c0 = .ok (c, blobs) ∧
    Delta1.compress u c (noPath b!"a" b!"m") = .ok (c', blob) ∧ Delta1.compress u c' (noPath b!"b" b!"m") = .ok (c'', blob') ∧
    c''.hosts.get? (u.norm b!"a") ≠ c''.hosts.get? (u.norm b!"b") ∧
    Sends (noPath b!"a" b!"m").headers (b!"cookie", b!"y=2") ∧ Sends (noPath b!"b" b!"m").headers (b!"cookie", b!"y=2") ∧ blob.length = 15 ∧ blob'.length = 9 := by
  have h := noPath_turns
  rw [Option.map_eq_some_iff] at h
  obtain ⟨r, h, hr⟩ := h
  simp only [id, Prod.ext_iff] at hr
  obtain ⟨u, c0, d, c, blobs, c', blob, c'', blob', h1, h2, h3, h4, h5, h6, h7, h8, h9, h10, h11⟩ := runTwo1_spec h
  rw [hr.2.2.1] at h11
  rw [hr.2.1] at h10
  simp only [List.cons.injEq] at h10
  refine ⟨u, c0, d, c, blobs, c', blob, c'', blob', h1, by rw [h3]; decide, h2, ?_, h6, h7, h8, by rw [h5]; exact of_decide_eq_true h11, ?_, ?_,
    h10.1, h10.2.1⟩
  · intro m hm
    simp only [List.mem_cons, List.not_mem_nil, or_false] at hm
    rcases hm with rfl | rfl | rfl | rfl <;> exact noPath_ok h4 _ _ (.inl rfl)
  · rw [sends_iff]
    decide +kernel
  · rw [sends_iff]
    decide +kernel

end Verif.Props
