import Verif.Lib.Proc
import Verif.Lib.Har
import Verif.Lib.Tsv
import Mathlib.Data.List.Forall2
/-
Property theorems for lib/ and compare_compressors.py (C46..C54, C56, C57).
-/
namespace Verif.Props
open Verif Verif.Lib Verif.Lib.Spec

/-! ### C46 -/

/-- C46.  compare_headers returns the empty string iff both dictionaries show the same
`(name, piece)` pairs, whatever order Python iterates sets in. -/
theorem C46_compare_headers_iff (ord : List Hdr → List Hdr) (hord : ∀ l, (ord l).Perm l)
    (a b : Dict Str Str) (aName bName : Str) :
    compareHeaders ord a aName b bName = [] ↔ Equiv a b := by
  rw [compare_nil hord]
  constructor
  · intro h name x; rw [← mem_normalize, ← mem_normalize]; exact h (name, x)
  · rintro h ⟨name, x⟩; rw [mem_normalize, mem_normalize]; exact h name x

/-- C46.  Comparing a dictionary with itself, in any order of its items, reports nothing. -/
theorem C46_compare_headers_reorder (ord : List Hdr → List Hdr) (hord : ∀ l, (ord l).Perm l)
    (a b : Dict Str Str) (h : a.Perm b) (aName bName : Str) :
    compareHeaders ord a aName b bName = [] := by
  rw [C46_compare_headers_iff ord hord]
  intro name x
  unfold Shows
  constructor
  · rintro ⟨h1, h2, h3, v, p, hm, hp⟩; exact ⟨h1, h2, h3, v, p, h.mem_iff.1 hm, hp⟩
  · rintro ⟨h1, h2, h3, v, p, hm, hp⟩; exact ⟨h1, h2, h3, v, p, h.mem_iff.2 hm, hp⟩

/-- C46.  Symmetric: a difference is reported one way iff it is the other way round. -/
theorem C46_compare_headers_symm (ord : List Hdr → List Hdr) (hord : ∀ l, (ord l).Perm l)
    (a b : Dict Str Str) (n1 n2 n3 n4 : Str) :
    compareHeaders ord a n1 b n2 = [] ↔ compareHeaders ord b n3 a n4 = [] := by
  rw [C46_compare_headers_iff ord hord, C46_compare_headers_iff ord hord]
  exact ⟨fun h name x => (h name x).symm, fun h name x => (h name x).symm⟩

/-- C46.  Rearranging cookie crumbs (or repeating them, or adding spaces around them) is not a
difference: only the set of crumbs counts. -/
theorem C46_compare_cookies (ord : List Hdr → List Hdr) (hord : ∀ l, (ord l).Perm l)
    (cs ds : List Str) (hc : cs ≠ []) (hd : ds ≠ []) (hcs : ∀ c ∈ cs, 59 ∉ c) (hds : ∀ c ∈ ds, 59 ∉ c)
    (n1 n2 : Str) :
    compareHeaders ord [(b!"cookie", joinWith b!";" cs)] n1 [(b!"cookie", joinWith b!";" ds)] n2 = [] ↔
      ∀ x, (∃ c ∈ cs, IsTrim c x) ↔ (∃ c ∈ ds, IsTrim c x) := by
  rw [C46_compare_headers_iff ord hord]
  have key : ∀ (l : List Str), l ≠ [] → (∀ c ∈ l, 59 ∉ c) → ∀ name x,
      Shows [(b!"cookie", joinWith b!";" l)] name x ↔ name = b!"cookie" ∧ ∃ c ∈ l, IsTrim c x := by
    intro l hl hls name x
    unfold Shows
    constructor
    · rintro ⟨_, _, _, v, p, hm, hp, ht⟩
      simp only [List.mem_singleton, Prod.mk.injEq] at hm
      obtain ⟨rfl, rfl⟩ := hm
      refine ⟨rfl, p, ?_, ht⟩
      rw [sepOf, if_pos rfl, ← mem_splitOn, splitOn_joinWith hl hls] at hp
      exact hp
    · rintro ⟨rfl, c, hc, ht⟩
      refine ⟨by decide, by decide, by decide, joinWith b!";" l, c, by simp, ?_, ht⟩
      rw [sepOf, if_pos rfl, ← mem_splitOn, splitOn_joinWith hl hls]
      exact hc
  constructor
  · intro h x
    have := h b!"cookie" x
    rw [key cs hc hcs, key ds hd hds] at this
    simpa using this
  · intro h name x
    rw [key cs hc hcs, key ds hd hds, h x]

example : compareHeaders id [(b!"cookie", b!"a=1; b=2"), (b!"x", b!"1")] b!"a"
    [(b!"x", b!" 1"), (b!":version", b!"HTTP/1.1"), (b!"cookie", b!"b=2;a=1")] b!"b" = [] := by decide +kernel
example : compareHeaders id [(b!"x", b!"1")] b!"a" [(b!"x", b!"2")] b!"b" =
    b!"Only found in: a\n\tx: 1\nOnly found in: b\n\tx: 2" := by decide +kernel
example : IsPiece 59 b!"a; b" b!" b" ∧ IsTrim b!" b" b!"b" :=
  ⟨⟨by decide, b!"a;", [], rfl, Or.inr ⟨b!"a", rfl⟩, Or.inl rfl⟩, ⟨1, 0, rfl⟩, by decide, by decide⟩

/-! ### C47 -/

/-- C47.  filter_headers keeps exactly the items whose name is not hop-by-hop, in order. -/
theorem C47_filter_headers (d : Dict Str Str) (hd : d.WF) :
    (filterHeaders d).Sublist d ∧
    ∀ name v, (name, v) ∈ filterHeaders d ↔ (name, v) ∈ d ∧ ¬ HopByHop d name := by
  rw [filterHeaders_eq hd]
  refine ⟨List.filter_sublist, fun name v => ?_⟩
  rw [List.mem_filter]
  simp only [decide_not, Bool.not_eq_eq_eq_not, Bool.not_true, decide_eq_false_iff_not]
  rw [mem_ignoredNames hd]

/-- C47.  Filtering twice changes nothing more. -/
theorem C47_filter_headers_idem (d : Dict Str Str) (hd : d.WF) :
    filterHeaders (filterHeaders d) = filterHeaders d := by
  have hsub := (C47_filter_headers d hd).1
  have hwf : (filterHeaders d).WF := List.Nodup.sublist (hsub.map _) hd
  rw [filterHeaders_eq hwf]
  rw [List.filter_eq_self]
  rintro ⟨name, v⟩ hm
  obtain ⟨h1, h2⟩ := ((C47_filter_headers d hd).2 name v).1 hm
  simp only [decide_not, Bool.not_eq_eq_eq_not, Bool.not_true, decide_eq_false_iff_not]
  rw [mem_ignoredNames hwf]
  rintro (h | ⟨v', p, h, _⟩)
  · exact h2 (Or.inl h)
  · obtain ⟨_, h4⟩ := ((C47_filter_headers d hd).2 _ _).1 h
    exact h4 (Or.inl (by simp))

example : filterHeaders [(b!"connection", b!"close, x-hop"), (b!"a", b!"1"), (b!"x-hop", b!"2"),
    (b!":version", b!"HTTP/1.1")] = [(b!"a", b!"1")] := by decide +kernel

/-! ### C48 -/

/-- C48, host.py and public_suffix.py.  Streams come in pairs (requests, responses), one pair per
key in order of first appearance; each holds exactly the messages with that key, in order, and the
same messages in both directions.  Applies to any key and label function. -/
theorem C48_streamify_by (key label : Str → Str) (ms : List Message) (hosts : List Str)
    (hh : ms.map (fun m => m.1.get? b!":host") = hosts.map some) :
    ∃ ks, FirstAppearance ks (hosts.map key) ∧
      streamifyBy key label ms = .ok (ks.flatMap fun k =>
        let mine := (ms.zip hosts).filter fun p => key p.2 = k
        [⟨k, mine.map fun p => (p.1.1, label p.2), true⟩,
         ⟨k, mine.map fun p => (p.1.2, label p.2), false⟩]) := by
  obtain ⟨g', h1, h2, h3⟩ := groupLoop_spec key label ms hosts ⟨[], [], []⟩ [] hh
    ⟨by simp, List.Pairwise.nil⟩
  refine ⟨g'.keys, by simpa using h2, ?_⟩
  unfold streamifyBy
  rw [h1]
  simp only [bind, Except.bind, pure, Except.pure, Except.ok.injEq]
  congr 1
  funext k
  rw [(h3 k).1, (h3 k).2]
  simp [groupOf]

/-- C48.  No message is lost or duplicated: the request streams together hold as many messages as
were given. -/
theorem C48_streamify_count (key label : Str → Str) (ms : List Message) (hosts : List Str)
    (hh : ms.map (fun m => m.1.get? b!":host") = hosts.map some) (ss : List NewStream)
    (hs : streamifyBy key label ms = .ok ss) (dir : Bool) :
    ((ss.filter fun s => s.isReq == dir).map fun s => s.messages.length).sum = ms.length := by
  obtain ⟨ks, hk, he⟩ := C48_streamify_by key label ms hosts hh
  rw [hs] at he
  cases he
  have hlen : hosts.length = ms.length := by
    have := congrArg List.length hh; simpa using this.symm
  have hnd : ks.Nodup := by
    refine List.Pairwise.imp ?_ hk.2
    intro a b hab e; subst e; omega
  have h1 : ∀ ks : List Str, ((ks.flatMap fun k =>
        let mine := (ms.zip hosts).filter fun p => key p.2 = k
        [(⟨k, mine.map fun p => (p.1.1, label p.2), true⟩ : NewStream),
         ⟨k, mine.map fun p => (p.1.2, label p.2), false⟩]).filter fun s => s.isReq == dir).map
          (fun s => s.messages.length) =
      ks.map fun k => ((ms.zip hosts).filter fun p => key p.2 = k).length := by
    intro ks
    induction ks with
    | nil => rfl
    | cons k ks ih =>
      simp only [List.flatMap_cons, List.filter_append, List.map_append, ih, List.map_cons]
      cases dir <;> simp
  rw [h1]
  have h2 : ∀ (l : List (Message × Str)), (∀ p ∈ l, key p.2 ∈ ks) →
      (ks.map fun k => (l.filter fun p => key p.2 = k).length).sum = l.length := by
    intro l hl
    induction l with
    | nil => simp
    | cons p l ih =>
      have := ih (fun q hq => hl q (by simp [hq]))
      have hp := hl p (by simp)
      rw [List.length_cons, ← this]
      clear this ih hl
      have hcount : ∀ (ks : List Str), ks.Nodup → key p.2 ∈ ks →
          (ks.map fun k => ((p :: l).filter fun p => key p.2 = k).length).sum =
          (ks.map fun k => (l.filter fun p => key p.2 = k).length).sum + 1 := by
        intro ks
        induction ks with
        | nil => intro _ h; cases h
        | cons k ks ihk =>
          intro hnd hm
          obtain ⟨n1, n2⟩ := List.nodup_cons.1 hnd
          simp only [List.map_cons, List.sum_cons]
          by_cases hk : key p.2 = k
          · have hno : (ks.map fun k => ((p :: l).filter fun p => key p.2 = k).length) =
                ks.map fun k => (l.filter fun p => key p.2 = k).length := by
              apply List.map_congr_left
              intro k' hk'
              have : key p.2 ≠ k' := by intro e; exact n1 (by rw [← hk, e]; exact hk')
              simp [this]
            rw [hno]; simp [hk]; omega
          · have hm' : key p.2 ∈ ks := by
              rcases List.mem_cons.1 hm with h | h
              · exact absurd h hk
              · exact h
            rw [ihk n2 hm']; simp [hk]; omega
      exact hcount ks hnd hp
  rw [h2]
  · simp [hlen]
  · rintro ⟨m, h⟩ hp
    have := (List.of_mem_zip hp).2
    exact (hk.1 _).2 (List.mem_map.2 ⟨h, this, rfl⟩)

/-- C48, host.py.  Spelled out: messages share a pair of streams iff their `:host` values are
equal after lower-casing and stripping, which also names the streams and is recorded with each
message. -/
theorem C48_streamify_host (lower : Str → Str) (ws : Nat → Bool) (ms : List Message) (hosts : List Str)
    (hh : ms.map (fun m => m.1.get? b!":host") = hosts.map some) :
    ∃ ks, FirstAppearance ks (hosts.map fun h => stripBy ws (lower h)) ∧
      streamifyHost lower ws ms = .ok (ks.flatMap fun k =>
        let mine := (ms.zip hosts).filter fun p => stripBy ws (lower p.2) = k
        [⟨k, mine.map fun p => (p.1.1, k), true⟩, ⟨k, mine.map fun p => (p.1.2, k), false⟩]) := by
  obtain ⟨ks, h1, h2⟩ := C48_streamify_by (fun h => stripBy ws (lower h)) (fun h => stripBy ws (lower h))
    ms hosts hh
  refine ⟨ks, h1, ?_⟩
  unfold streamifyHost
  rw [h2]
  simp only [Except.ok.injEq]
  congr 1
  funext k
  have : ∀ (f : Message → Dict Str Str),
      ((ms.zip hosts).filter fun p => stripBy ws (lower p.2) = k).map
        (fun p => (f p.1, stripBy ws (lower p.2))) =
      ((ms.zip hosts).filter fun p => stripBy ws (lower p.2) = k).map (fun p => (f p.1, k)) := by
    intro f
    apply List.map_congr_left
    intro p hp
    have := (List.mem_filter.1 hp).2
    simp only [decide_eq_true_eq] at this
    rw [this]
  simp only [this (fun m => m.1), this (fun m => m.2)]

/-- C48, public_suffix.py.  Messages share a pair of streams iff their hosts, without the port,
have the same public suffix; the host recorded with a message is the one it came with. -/
theorem C48_streamify_suffix (psl : Str → Str) (ms : List Message) (names : List Str)
    (ports : List (Option Str)) (hlen : names.length = ports.length) (hcolon : ∀ n ∈ names, 58 ∉ n)
    (hosts : List Str)
    (hhosts : hosts = List.zipWith (fun n p => match p with | some p => n ++ [58] ++ p | none => n) names ports)
    (hh : ms.map (fun m => m.1.get? b!":host") = hosts.map some) :
    ∃ ks, FirstAppearance ks (names.map psl) ∧
      streamifySuffix psl ms = .ok (ks.flatMap fun k =>
        let mine := (ms.zip (hosts.zip names)).filter fun p => psl p.2.2 = k
        [⟨k, mine.map fun p => (p.1.1, p.2.1), true⟩, ⟨k, mine.map fun p => (p.1.2, p.2.1), false⟩]) := by
  have hkey : hosts.map dropPort = names := by
    rw [hhosts]
    clear hhosts hh
    induction names generalizing ports with
    | nil => cases ports <;> simp at hlen; rfl
    | cons n ns ih =>
      cases ports with
      | nil => simp at hlen
      | cons q qs =>
        have ih' := ih qs (by simpa using hlen) (fun m hm => hcolon m (by simp [hm]))
        have hn := hcolon n (by simp)
        simp only [List.zipWith_cons_cons, List.map_cons, ih']
        congr 1
        cases q with
        | none => simp only [dropPort, splitOnce_none.2 hn]
        | some q =>
          have := splitOnce_eq hn q
          simp only [dropPort, List.append_assoc, List.singleton_append, this]
  obtain ⟨ks, h1, h2⟩ := C48_streamify_by
    (fun h => psl (dropPort h)) (fun h => h) ms hosts hh
  refine ⟨ks, ?_, ?_⟩
  · have : hosts.map (fun h => psl (dropPort h)) =
        names.map psl := by
      rw [← hkey, List.map_map]; rfl
    rwa [this] at h1
  · unfold streamifySuffix
    rw [h2]
    simp only [Except.ok.injEq]
    congr 1
    funext k
    have hz : ∀ (f : Message → Dict Str Str) (ms : List Message) (hosts : List Str),
        ((ms.zip hosts).filter fun p =>
            psl (dropPort p.2) = k).map
          (fun p => (f p.1, p.2)) =
        ((ms.zip (hosts.zip (hosts.map dropPort))).filter
          fun p => psl p.2.2 = k).map (fun p => (f p.1, p.2.1)) := by
      intro f ms
      induction ms with
      | nil => intro hosts; rfl
      | cons m ms ih =>
        intro hosts
        cases hosts with
        | nil => rfl
        | cons h hs =>
          simp only [List.zip_cons_cons, List.map_cons, List.filter_cons]
          by_cases hc : psl (dropPort h) = k
          · simp only [hc, decide_true, if_true, List.map_cons, ih]
          · simp only [hc, decide_false, Bool.false_eq_true, if_false, ih]
    simp only [hz (fun m => m.1), hz (fun m => m.2), hkey]

example : (streamifySuffix (fun h => h.drop 2)
    [([(b!":host", b!"a.com:80")], []), ([(b!":host", b!"b.com")], [])]).toOption.map
      (·.map fun s => (s.name, s.messages.map (·.2))) =
    some [(b!"com", [b!"a.com:80", b!"b.com"]), (b!"com", [b!"a.com:80", b!"b.com"])] := by decide +kernel

/-- C48.  A message without `:host` makes every streamifier raise KeyError. -/
theorem C48_streamify_no_host (key label : Str → Str) (ms : List Message) :
    (streamifyBy key label ms = .error .key ↔ ∃ m ∈ ms, m.1.get? b!":host" = none) ∧
    (streamifyAllOne ms = .error .key ↔ ∃ m ∈ ms, m.1.get? b!":host" = none) := by
  have hg : ∀ (ms : List Message) (g : Groups), (∃ m ∈ ms, m.1.get? b!":host" = none) →
      groupLoop key label ms g = .error .key := by
    intro ms
    induction ms with
    | nil => rintro g ⟨m, hm, _⟩; cases hm
    | cons m ms ih =>
      rintro g ⟨x, hx, hn⟩
      obtain ⟨req, res⟩ := m
      simp only [groupLoop]
      cases hr : req.get? b!":host" with
      | none => rfl
      | some host =>
        refine ih _ ⟨x, ?_, hn⟩
        rcases List.mem_cons.1 hx with rfl | hx
        · rw [hr] at hn; cases hn
        · exact hx
  have ha : ∀ (ms : List Message), (∃ m ∈ ms, m.1.get? b!":host" = none) → allOneLoop ms = .error .key := by
    intro ms
    induction ms with
    | nil => rintro ⟨m, hm, _⟩; cases hm
    | cons m ms ih =>
      rintro ⟨x, hx, hn⟩
      obtain ⟨req, res⟩ := m
      simp only [allOneLoop]
      cases hr : req.get? b!":host" with
      | none => rfl
      | some host =>
        have := ih ⟨x, by
          rcases List.mem_cons.1 hx with rfl | hx
          · rw [hr] at hn; cases hn
          · exact hx, hn⟩
        simp only [this]; rfl
  have hosts : (¬ ∃ m ∈ ms, m.1.get? b!":host" = none) →
      ∃ hosts : List Str, ms.map (fun m => m.1.get? b!":host") = hosts.map some := by
    intro h
    clear hg ha
    induction ms with
    | nil => exact ⟨[], rfl⟩
    | cons m ms ih =>
      obtain ⟨hs, e⟩ := ih (fun ⟨x, hx, hn⟩ => h ⟨x, by simp [hx], hn⟩)
      cases hr : m.1.get? b!":host" with
      | none => exact absurd ⟨m, by simp, hr⟩ h
      | some host => exact ⟨host :: hs, by simp [hr, e]⟩
  constructor
  · constructor
    · intro h
      by_contra hc
      obtain ⟨hs, e⟩ := hosts hc
      obtain ⟨ks, _, h2⟩ := C48_streamify_by key label ms hs e
      rw [h] at h2; cases h2
    · intro h; unfold streamifyBy; rw [hg ms _ h]; rfl
  · constructor
    · intro h
      by_contra hc
      obtain ⟨hs, e⟩ := hosts hc
      have h2 := allOneLoop_spec ms hs e
      unfold streamifyAllOne at h
      rw [h2] at h; cases h
    · intro h; unfold streamifyAllOne; rw [ha ms h]; rfl

/-- C48, all_one.py: one stream per direction with all messages in order. -/
theorem C48_streamify_all_one (ms : List Message) (hosts : List Str)
    (hh : ms.map (fun m => m.1.get? b!":host") = hosts.map some) :
    streamifyAllOne ms = .ok
      [⟨b!"all", (ms.zip hosts).map fun p => (p.1.1, p.2), true⟩,
       ⟨b!"all", (ms.zip hosts).map fun p => (p.1.2, p.2), false⟩] := by
  unfold streamifyAllOne
  rw [allOneLoop_spec ms hosts hh]; rfl

example : (streamifyHost lower isWs
    [([(b!":host", b!"B.x ")], [(b!"n", b!"0")]), ([(b!":host", b!"a")], []), ([(b!":host", b!"b.x")], [])]).toOption.map
      (·.map fun s => (s.name, s.messages.length)) =
    some [(b!"b.x", 2), (b!"b.x", 2), (b!"a", 1), (b!"a", 1)] := by decide +kernel

/-! ### C49, C50 -/

/-- C49.  merge_dols: union of the keys, lists concatenated. -/
theorem C49_merge_dols {β : Type} (d1 d2 : Dict Str (List β)) (h1 : d1.WF) (h2 : d2.WF) (k : Str) :
    (mergeDols d1 d2).get? k =
      match d1.get? k, d2.get? k with
      | some a, some b => some (a ++ b)
      | some a, none => some a
      | none, some b => some b
      | none, none => none := mergeDols_get h1 h2 k

/-- The streams and message lists behind a list of references. -/
structure Sessions {M : Type} (w : World M) (sessions : List Nat) (isReq : Bool)
    (ss : List Stream) (ls : List (List M)) : Prop where
  /-- the sessions of the wanted direction, in order -/
  streams : (sessions.filter fun i => (w.streams[i]?.map (·.isReq)) == some isReq).map
    (fun i => w.streams[i]?) = ss.map some
  /-- their message lists -/
  lists : ss.map (fun s => w.lists[s.messages]?) = ls.map some
  /-- every session has its own message list -/
  own : (ss.map (·.messages)).Nodup
  /-- result tables are dictionaries -/
  wf : ∀ s ∈ ss, s.results.sizes.WF ∧ s.results.ratios.WF

theorem total_spec {M : Type} {w : World M} {sessions : List Nat} {isReq : Bool} {a : Stream}
    {bs : List Stream} {la : List M} {ls : List (List M)} (h : Sessions w sessions isReq (a :: bs) (la :: ls)) :
    ∃ (w1 : World M) (t : Nat) (s : Stream) (extra : List Stream) (i : Nat), w.streams[i]? = some a ∧ i ∈ sessions ∧
      totalStream w sessions isReq =
        .ok ({ w1 with streams := w1.streams.modify t fun s => { s with name := b!"TOTAL" } }, t) ∧
      w1.streams = w.streams ++ extra ∧ w1.streams[t]? = some s ∧
      s.results.sizes = (bs.map (·.results.sizes)).foldl mergeDols a.results.sizes ∧
      s.results.ratios = (bs.map (·.results.ratios)).foldl mergeDols a.results.ratios ∧
      w1.lists = w.lists.set a.messages (la ++ ls.flatten) ∧
      (bs = [] → t = i) ∧ (bs ≠ [] → w.streams.length ≤ t) := by
  obtain ⟨h1, h2, h3, h4⟩ := h
  have hmem : ∀ j ∈ sessions.filter (fun i => (w.streams[i]?.map (·.isReq)) == some isReq),
      j ∈ sessions := fun j hj => (List.mem_filter.1 hj).1
  have hreq : ∀ x, some x ∈ (sessions.filter fun i => (w.streams[i]?.map (·.isReq)) == some isReq).map
      (fun i => w.streams[i]?) → x.isReq = isReq := by
    intro x hx
    obtain ⟨j, hj, he⟩ := List.mem_map.1 hx
    have := (List.mem_filter.1 hj).2
    rw [he] at this
    simpa using this
  rw [h1] at hreq
  unfold totalStream
  cases hs : sessions.filter (fun i => (w.streams[i]?.map (·.isReq)) == some isReq) with
  | nil => rw [hs] at h1; cases h1
  | cons i is =>
    rw [hs] at h1 hmem
    simp only [List.map_cons, List.cons.injEq] at h1 h2 h3
    obtain ⟨n1, n2⟩ := List.nodup_cons.1 h3
    obtain ⟨w', t, s, extra, i1, i2, i3, i4, i5, i6, i7, i8, i9, i10, i11⟩ :=
      addAll_spec is w i a la bs ls h1.1 h2.1 h1.2 h2.2 (by
        intro b hb
        refine ⟨?_, fun e => n1 (by rw [← e]; exact List.mem_map.2 ⟨b, hb, rfl⟩)⟩
        rw [hreq b (by simp [hb]), hreq a (by simp)])
    have hnil : bs = [] ↔ is = [] := by
      have := congrArg List.length h1.2
      simp at this
      constructor
      · intro h; apply List.eq_nil_of_length_eq_zero; rw [this, h]; rfl
      · intro h; apply List.eq_nil_of_length_eq_zero; rw [← this, h]; rfl
    refine ⟨w', t, s, extra, i, h1.1, hmem i (by simp), ?_, i2, i3, i7, i8, i9,
      fun h => (i10 (hnil.1 h)).1, fun h => i11 (fun hc => h (hnil.2 hc))⟩
    simp only [bind, Except.bind, i1, pure, Except.pure]

/-- C49.  The total stream of a direction holds for every codec the concatenation, in session
order, of the sizes of all sessions of that direction. -/
theorem C49_total_concatenates {M : Type} (w : World M) (sessions : List Nat) (isReq : Bool)
    (ss : List Stream) (ls : List (List M)) (h : Sessions w sessions isReq ss ls) (hne : ss ≠ []) :
    ∃ w' t s, totalStream w sessions isReq = .ok (w', t) ∧ w'.streams[t]? = some s ∧ s.name = b!"TOTAL" ∧
      ∀ k, sizesOf s.results.sizes k = ss.flatMap (fun x => sizesOf x.results.sizes k) ∧
        (s.results.sizes.has k = true ↔ ∃ x ∈ ss, x.results.sizes.has k = true) ∧
        (sizesOf s.results.sizes k).sum = (ss.map fun x => (sizesOf x.results.sizes k).sum).sum := by
  cases ss with
  | nil => exact absurd rfl hne
  | cons a bs =>
    cases ls with
    | nil => have := h.lists; simp at this
    | cons la ls =>
      obtain ⟨w1, t, s, extra, i, _, _, h1, h2, h3, h4, h5, h6, _⟩ := total_spec h
      refine ⟨_, t, { s with name := b!"TOTAL" }, h1, ?_, rfl, fun k => ?_⟩
      · simp [h3]
      · have hm := foldl_merge_get (bs.map (·.results.sizes)) a.results.sizes (h.wf a (by simp)).1
          (by intro e he; obtain ⟨x, hx, rfl⟩ := List.mem_map.1 he; exact (h.wf x (by simp [hx])).1) k
        rw [← h4] at hm
        have hflat : (a.results.sizes :: bs.map (·.results.sizes)).flatMap
            (fun e => (e.get? k).getD []) =
            (a :: bs).flatMap (fun x => sizesOf x.results.sizes k) := by
          have : a.results.sizes :: bs.map (·.results.sizes) = (a :: bs).map (·.results.sizes) := rfl
          rw [this, List.flatMap_map]
          congr 1; funext x; unfold sizesOf; cases x.results.sizes.get? k <;> rfl
        rw [hflat] at hm
        have hall : (∀ e ∈ a.results.sizes :: bs.map (·.results.sizes), e.get? k = none) ↔
            ∀ x ∈ a :: bs, x.results.sizes.get? k = none := by
          constructor
          · intro h x hx
            rcases List.mem_cons.1 hx with rfl | hx
            · exact h _ (by simp)
            · exact h _ (List.mem_cons_of_mem _ (List.mem_map.2 ⟨x, hx, rfl⟩))
          · intro h e he
            rcases List.mem_cons.1 he with rfl | he
            · exact h _ (by simp)
            · obtain ⟨x, hx, rfl⟩ := List.mem_map.1 he
              exact h x (by simp [hx])
        have h7 : sizesOf s.results.sizes k = (a :: bs).flatMap (fun x => sizesOf x.results.sizes k) ∧
            (s.results.sizes.has k = true ↔ ∃ x ∈ a :: bs, x.results.sizes.has k = true) := by
          by_cases hc : ∀ x ∈ a :: bs, x.results.sizes.get? k = none
          · rw [if_pos (hall.2 hc)] at hm
            constructor
            · have : (a :: bs).flatMap (fun x => sizesOf x.results.sizes k) = [] := by
                rw [List.flatMap_eq_nil_iff]
                intro x hx; unfold sizesOf; rw [hc x hx]
              rw [this]; unfold sizesOf; rw [hm]
            · simp only [Dict.has, hm, Option.isSome_none, Bool.false_eq_true, false_iff, not_exists,
                not_and]
              intro x hx; rw [hc x hx]; simp
          · rw [if_neg (fun h => hc (hall.1 h))] at hm
            constructor
            · unfold sizesOf at hm ⊢; rw [hm]
            · simp only [Dict.has, hm, Option.isSome_some, true_iff]
              by_contra hno
              apply hc
              intro x hx
              cases hg : x.results.sizes.get? k with
              | none => rfl
              | some l => exact absurd ⟨x, hx, by simp [hg]⟩ hno
        refine ⟨h7.1, h7.2, ?_⟩
        dsimp only
        rw [h7.1]
        have : ∀ l : List Stream, (l.flatMap (fun x => sizesOf x.results.sizes k)).sum =
            (l.map fun x => (sizesOf x.results.sizes k).sum).sum := by
          intro l
          induction l with
          | nil => rfl
          | cons y ys ih => simp [ih]
        exact this _

/-- C50 (partial).  Full claim: adding streams leaves the operands unchanged.  Proved: results and
directions of all existing streams are unchanged, and with two or more sessions so are their names.
Missing: message lists and names are disturbed, see `C50_totals_extend_first_session` and
`C50_single_session_renamed`. -/
theorem C50_totals_keep_results_partial {M : Type} (w : World M) (sessions : List Nat) (isReq : Bool)
    (ss : List Stream) (ls : List (List M)) (h : Sessions w sessions isReq ss ls) (w' : World M) (t : Nat)
    (ht : totalStream w sessions isReq = .ok (w', t)) (j : Nat) (x : Stream) (hj : w.streams[j]? = some x) :
    ∃ y, w'.streams[j]? = some y ∧ y.results = x.results ∧ y.isReq = x.isReq ∧ y.procs = x.procs ∧
      y.messages = x.messages ∧ (ss.length ≠ 1 → y.name = x.name) := by
  cases ss with
  | nil =>
    have hs := h.streams
    unfold totalStream at ht
    simp only [List.map_nil, List.map_eq_nil_iff] at hs
    rw [hs] at ht
    cases ht
  | cons a bs =>
    cases ls with
    | nil => have := h.lists; simp at this
    | cons la ls =>
      obtain ⟨w1, t1, s, extra, i, _, _, h1, h2, h3, h4, h5, h6, h7, h8⟩ := total_spec h
      rw [h1] at ht
      simp only [Except.ok.injEq, Prod.mk.injEq] at ht
      obtain ⟨rfl, rfl⟩ := ht
      have hlt := (List.getElem?_eq_some_iff.1 hj).1
      have hw1 : w1.streams[j]? = some x := by rw [h2, List.getElem?_append_left hlt, hj]
      simp only [List.getElem?_modify, hw1]
      by_cases e : t1 = j
      · refine ⟨{ x with name := b!"TOTAL" }, by simp [e], rfl, rfl, rfl, rfl, ?_⟩
        intro hl
        have hbs : bs ≠ [] := by intro hb; simp [hb] at hl
        have := h8 hbs
        omega
      · exact ⟨x, by simp [e], rfl, rfl, rfl, rfl, fun _ => rfl⟩

/-- C50, the claim is false.  After computing the total, the first session's own message list has
become the concatenation of the messages of all sessions of its direction. -/
theorem C50_totals_extend_first_session {M : Type} (w : World M) (sessions : List Nat) (isReq : Bool)
    (a : Stream) (bs : List Stream) (la : List M) (ls : List (List M))
    (h : Sessions w sessions isReq (a :: bs) (la :: ls)) :
    ∃ w' t, totalStream w sessions isReq = .ok (w', t) ∧
      w'.lists[a.messages]? = some (la ++ ls.flatten) ∧
      ∀ r, r ≠ a.messages → w'.lists[r]? = w.lists[r]? := by
  obtain ⟨w1, t, s, extra, i, _, _, h1, h2, h3, h4, h5, h6, _⟩ := total_spec h
  have hlt : a.messages < w.lists.length := by
    have := h.lists
    simp only [List.map_cons, List.cons.injEq] at this
    exact (List.getElem?_eq_some_iff.1 this.1).1
  refine ⟨_, t, h1, ?_, fun r hr => ?_⟩
  · simp [h6, hlt]
  · simp [h6, List.getElem?_set_ne (Ne.symm hr)]

/-- C50, the claim is false.  With one session of a direction, that session itself is renamed
TOTAL (and so are its lines in the TSV file). -/
theorem C50_single_session_renamed {M : Type} (w : World M) (sessions : List Nat) (isReq : Bool)
    (a : Stream) (la : List M) (h : Sessions w sessions isReq [a] [la]) :
    ∃ w' t, totalStream w sessions isReq = .ok (w', t) ∧ t ∈ sessions ∧ w.streams[t]? = some a ∧
      w'.streams[t]? = some { a with name := b!"TOTAL" } := by
  obtain ⟨w1, t, s, extra, i, hi, hmem, h1, h2, h3, h4, h5, h6, h7, _⟩ := total_spec h
  have := h7 rfl
  subst this
  refine ⟨_, t, h1, hmem, hi, ?_⟩
  have : w1.streams[t]? = some a := by
    rw [h2, List.getElem?_append_left (List.getElem?_eq_some_iff.1 hi).1, hi]
  simp [this]

private def twoSessions : World Nat :=
  { lists := [[1], [2, 3]],
    streams := [⟨b!"a", 0, true, [b!"http1"], ⟨[(b!"http1", [10])], [(b!"http1", [(1, 1)])]⟩⟩,
                ⟨b!"b", 1, true, [b!"http1"], ⟨[(b!"http1", [20, 30])], [(b!"http1", [(1, 1), (1, 1)])]⟩⟩] }

/-- Two sessions with one and two messages meet the hypotheses; afterwards the first has three. -/
example : ∃ ss ls, Sessions twoSessions [0, 1] true ss ls ∧ ss.length = 2 :=
  ⟨twoSessions.streams, twoSessions.lists, ⟨rfl, rfl, by decide, by
    intro s hs
    simp only [twoSessions, List.mem_cons, List.not_mem_nil, or_false] at hs
    rcases hs with rfl | rfl <;> exact ⟨by unfold Dict.WF; decide, by unfold Dict.WF; decide⟩⟩, rfl⟩
example : (totalStream twoSessions [0, 1] true).toOption.map (fun p => p.1.lists) =
    some [[1, 2, 3], [2, 3]] := by decide +kernel

/-! ### C51 -/

/-- C51.  The two TSV files have one line per message of their direction, numbered from 1, with the
stream's name and the size each codec recorded for that message. -/
theorem C51_tsv (ss : List Stream) (n : Stream → Nat)
    (h : ∀ s ∈ ss, s.procs ≠ [] ∧ ∀ p ∈ s.procs, (sizesOf s.results.sizes p).length = n s) :
    let out := tsvLoop ss (([], 0), ([], 0))
    ∀ dir : Bool,
      let rows := if dir then out.1.1 else out.2.1
      let mine := ss.filter fun s => s.isReq == dir
      rows.map (·.num) = List.range' 1 ((mine.map n).sum) ∧
      rows.map (fun r => (r.name, r.sizes.map some)) = mine.flatMap fun s =>
        (List.range (n s)).map fun j => (s.name, s.procs.map fun p => (sizesOf s.results.sizes p)[j]?) := by
  intro out dir
  obtain ⟨R, S, h1, h2, h3, h4, h5, h6⟩ := tsvLoop_spec n ss h ([], 0) ([], 0)
  have f1 : (ss.filter fun s => s.isReq == true) = ss.filter (·.isReq) := by
    congr 1; funext s; simp
  have f2 : (ss.filter fun s => s.isReq == false) = ss.filter (!·.isReq) := by
    congr 1; funext s; simp
  cases dir
  · simp only [Bool.false_eq_true, if_false]
    show (tsvLoop ss (([], 0), ([], 0))).2.1.map _ = _ ∧ (tsvLoop ss (([], 0), ([], 0))).2.1.map _ = _
    rw [h2, f2]
    exact ⟨by simpa using h4, by rw [List.nil_append, h6]; rfl⟩
  · simp only [if_true]
    show (tsvLoop ss (([], 0), ([], 0))).1.1.map _ = _ ∧ (tsvLoop ss (([], 0), ([], 0))).1.1.map _ = _
    rw [h1, f1]
    exact ⟨by simpa using h3, by rw [List.nil_append, h5]; rfl⟩

example : tsvLoop [⟨b!"a", 0, true, [b!"p", b!"q"], ⟨[(b!"p", [1, 2]), (b!"q", [3, 4])], []⟩⟩,
      ⟨b!"b", 1, true, [b!"p", b!"q"], ⟨[(b!"p", [5]), (b!"q", [6])], []⟩⟩] (([], 0), ([], 0)) =
    (([⟨1, b!"a", [1, 3]⟩, ⟨2, b!"a", [2, 4]⟩, ⟨3, b!"b", [5, 6]⟩], 3), ([], 0)) := by decide +kernel

/-! ### C52, C53, C54 -/

/-- C52.  process_headers raises iff some name is empty; otherwise it is a dictionary mapping each
(lower-cased, `host` renamed) name to the NUL-joined values of its lines in order. -/
theorem C52_process_headers (lower : Str → Str) (lines : List Hdr) :
    ((∃ e, processHeaders lower lines [] = .error e) ↔ ∃ l ∈ lines, lower l.1 = []) ∧
    ∀ d, processHeaders lower lines [] = .ok d → d.WF ∧ ∀ n,
      let vs : List Str := (lines.filter fun l => (if lower l.1 = b!"host" then b!":host" else lower l.1) = n).map (·.2)
      d.get? n = if vs = [] then none else some (joinWith [0] vs) := by
  obtain ⟨h1, h2⟩ := processHeaders_spec lower lines [] Dict.wf_nil
  have conv : ∀ n, valuesOf (lines.map fun h => (filedName lower h.1, h.2)) n =
      (lines.filter fun l => (if lower l.1 = b!"host" then b!":host" else lower l.1) = n).map (·.2) := by
    intro n
    unfold valuesOf filedName
    induction lines with
    | nil => rfl
    | cons l ls ih =>
      have ih' := ih (by
        obtain ⟨a, b⟩ := processHeaders_spec lower ls [] Dict.wf_nil; exact a) (by
        obtain ⟨a, b⟩ := processHeaders_spec lower ls [] Dict.wf_nil; exact b)
      simp only [List.map_cons, List.filter_cons]
      by_cases hc : (if lower l.1 = b!"host" then b!":host" else lower l.1) = n
      · simp only [hc, decide_true, if_true, List.map_cons, ih']
      · simp only [hc, decide_false, Bool.false_eq_true, if_false, ih']
  constructor
  · constructor
    · rintro ⟨e, he⟩
      by_contra hc
      obtain ⟨d, hd, _⟩ := h2 (fun l hl hn => hc ⟨l, hl, hn⟩)
      rw [hd] at he; cases he
    · intro h; exact ⟨_, h1 h⟩
  · intro d hd
    by_cases hbad : ∃ l ∈ lines, lower l.1 = []
    · rw [h1 hbad] at hd; cases hd
    · obtain ⟨d', e1, e2, e3⟩ := h2 (fun l hl hn => hbad ⟨l, hl, hn⟩)
      rw [hd] at e1
      cases e1
      refine ⟨e2, fun n => ?_⟩
      have := e3 n
      rw [conv] at this
      exact this

example : processHeaders lower [(b!"Host", b!"x"), (b!"Set-Cookie", b!"a"), (b!"set-cookie", b!"b")] [] =
    .ok [(b!":host", b!"x"), (b!"set-cookie", b!"a" ++ [0] ++ b!"b")] := by decide +kernel

/-- C53.  har2hdrs returns equally long lists, one pair per http(s) entry in order; every pair
carries the derived headers of that entry and its header lines. -/
theorem C53_har2hdrs (lower : Str → Str) (ws : Nat → Bool) (es : List HarEntry)
    (reqs ress : List (Dict Str Str)) (h : har2hdrs lower ws es = .ok (reqs, ress)) :
    let kept := es.filter fun e => lower e.scheme = b!"http" ∨ lower e.scheme = b!"https"
    reqs.length = kept.length ∧ ress.length = kept.length ∧
    List.Forall₂ (fun (e : HarEntry) (q : Dict Str Str) =>
      q.get? b!":method" = some (lower e.method) ∧
      q.get? b!":path" = some (if e.query = [] then e.path else e.path ++ b!"?" ++ e.query) ∧
      q.get? b!":scheme" = some (lower e.scheme) ∧
      q.get? b!":version" = some e.reqVersion ∧
      (∃ host, q.get? b!":host" = some host) ∧
      ∀ n, n ∉ [b!":method", b!":path", b!":scheme", b!":version", b!":host"] →
        let vs : List Str := (e.reqHeaders.filter fun l =>
          (if lower l.1 = b!"host" then b!":host" else lower l.1) = n).map (·.2)
        q.get? n = if vs = [] then none else some (joinWith [0] vs)) kept reqs ∧
    List.Forall₂ (fun (e : HarEntry) (q : Dict Str Str) =>
      q.get? b!":status" = some (reStatus e.status) ∧
      q.get? b!":status-text" = some
        (if stripBy ws e.statusText ≠ [] then stripBy ws e.statusText
         else (statusPhrases.get? (reStatus e.status)).getD b!"unknown") ∧
      q.get? b!":version" = some e.resVersion ∧
      ∀ n, n ∉ [b!":status", b!":status-text", b!":version"] →
        let vs : List Str := (e.resHeaders.filter fun l =>
          (if lower l.1 = b!"host" then b!":host" else lower l.1) = n).map (·.2)
        q.get? n = if vs = [] then none else some (joinWith [0] vs)) kept ress := by
  obtain ⟨R, S, e1, e2, h1, h2⟩ := harLoop_ok lower ws es [] [] reqs ress h
  simp only [List.nil_append] at e1 e2
  subst e1 e2
  have conv : ∀ (lines : List Hdr) (n : Str), valuesOf (lines.map fun h => (filedName lower h.1, h.2)) n =
      (lines.filter fun l => (if lower l.1 = b!"host" then b!":host" else lower l.1) = n).map (·.2) := by
    intro lines n
    unfold valuesOf filedName
    induction lines with
    | nil => rfl
    | cons l ls ih =>
      simp only [List.map_cons, List.filter_cons]
      by_cases hc : (if lower l.1 = b!"host" then b!":host" else lower l.1) = n
      · simp only [hc, decide_true, if_true, List.map_cons, ih]
      · simp only [hc, decide_false, Bool.false_eq_true, if_false, ih]
  refine ⟨h1.length_eq.symm, h2.length_eq.symm, ?_, ?_⟩
  · refine List.Forall₂.imp ?_ h1
    rintro e q ⟨seen, hq⟩
    obtain ⟨_, _, a1, a2, a3, a4, a5, a6⟩ := harRequest_ok hq
    refine ⟨a1, a2, a3, a4, ⟨_, a5⟩, fun n hn => ?_⟩
    have := a6 n hn
    rw [conv] at this
    exact this
  · refine List.Forall₂.imp ?_ h2
    intro e q hq
    obtain ⟨_, _, a1, a2, a3, a4⟩ := harResponse_ok hq
    refine ⟨a1, ?_, a3, fun n hn => ?_⟩
    · rw [a2]
      cases statusPhrases.get? (reStatus e.status) <;> simp
    have := a4 n hn
    rw [conv] at this
    exact this

/-- C53.  The `:status` of a response is the leading digits of its status. -/
theorem C53_status_digits (digits rest : Str) (hd : ∀ c ∈ digits, 48 ≤ c ∧ c ≤ 57)
    (hr : ∀ c, rest.head? = some c → ¬ (48 ≤ c ∧ c ≤ 57)) (hn : 10 ∉ rest) :
    reStatus (digits ++ rest) = digits := by
  have h1 : (digits ++ rest).takeWhile (fun c => 48 ≤ c && c ≤ 57) = digits := by
    induction digits with
    | nil =>
      cases rest with
      | nil => rfl
      | cons c cs =>
        have := hr c rfl
        simp only [List.nil_append, List.takeWhile_cons]
        rw [if_neg]
        simpa using this
    | cons d ds ih =>
      have := hd d (by simp)
      simp only [List.cons_append, List.takeWhile_cons]
      rw [if_pos (by simpa using this), ih (fun c hc => hd c (by simp [hc]))]
  unfold reStatus
  simp only [h1]
  rw [List.drop_left, dropWhile_all]
  · simp
  · intro c hc
    simp only [ne_eq, decide_not, Bool.not_eq_eq_eq_not, Bool.not_true, decide_eq_false_iff_not]
    intro e; subst e; exact hn hc

/-- C53.  har2hdrs raises iff a kept entry has an empty header name. -/
theorem C53_har2hdrs_raises (lower : Str → Str) (ws : Nat → Bool) (es : List HarEntry) :
    (∃ x, har2hdrs lower ws es = .error x) ↔
      ∃ e ∈ es, (lower e.scheme = b!"http" ∨ lower e.scheme = b!"https") ∧
        ∃ l ∈ e.reqHeaders ++ e.resHeaders, lower l.1 = [] := by
  obtain ⟨h1, h2⟩ := harLoop_total lower ws es ([], [])
  have hf : ∀ e, isHttp lower e = true ↔ (lower e.scheme = b!"http" ∨ lower e.scheme = b!"https") := by
    intro e; simp [isHttp]
  constructor
  · rintro ⟨x, hx⟩
    by_contra hc
    obtain ⟨q, hq⟩ := h2 (fun e he hh l hl hn => hc ⟨e, he, (hf e).1 hh, l, hl, hn⟩)
    unfold har2hdrs at hx
    rw [hq] at hx; cases hx
  · rintro ⟨e, he, hh, l, hl, hn⟩
    exact ⟨_, h1 ⟨e, he, (hf e).2 hh, l, hl, hn⟩⟩

/-- C54, the claim is false.  Whatever Host header line a request has, its `:host` is the part of
the URL between `://` and the next `/`. -/
theorem C54_host_from_url (lower : Str → Str) (ws : Nat → Bool) (es : List HarEntry)
    (reqs ress : List (Dict Str Str)) (h : har2hdrs lower ws es = .ok (reqs, ress)) :
    List.Forall₂ (fun (e : HarEntry) (q : Dict Str Str) =>
      ∀ scheme host path, e.url = scheme ++ b!"://" ++ host ++ b!"/" ++ path →
        58 ∉ scheme → 47 ∉ host → 10 ∉ path → q.get? b!":host" = some host)
      (es.filter fun e => lower e.scheme = b!"http" ∨ lower e.scheme = b!"https") reqs := by
  obtain ⟨R, S, e1, e2, h1, h2⟩ := harLoop_ok lower ws es [] [] reqs ress h
  simp only [List.nil_append] at e1
  subst e1
  refine List.Forall₂.imp ?_ h1
  rintro e q ⟨seen, hq⟩ scheme host path hu n1 n2 n3
  obtain ⟨_, _, _, _, _, _, a5, _⟩ := harRequest_ok hq
  rw [a5, hu, reHost_eq n1 n2 n3]

/-- C54.  Worse, a URL without a path becomes the `:host` value as a whole. -/
theorem C54_host_is_whole_url (lower : Str → Str) (ws : Nat → Bool) (es : List HarEntry)
    (reqs ress : List (Dict Str Str)) (h : har2hdrs lower ws es = .ok (reqs, ress)) :
    List.Forall₂ (fun (e : HarEntry) (q : Dict Str Str) =>
      ∀ scheme host, e.url = scheme ++ b!"://" ++ host → 58 ∉ scheme → 47 ∉ host →
        q.get? b!":host" = some e.url)
      (es.filter fun e => lower e.scheme = b!"http" ∨ lower e.scheme = b!"https") reqs := by
  obtain ⟨R, S, e1, e2, h1, h2⟩ := harLoop_ok lower ws es [] [] reqs ress h
  simp only [List.nil_append] at e1
  subst e1
  refine List.Forall₂.imp ?_ h1
  rintro e q ⟨seen, hq⟩ scheme host hu n1 n2
  obtain ⟨_, _, _, _, _, _, a5, _⟩ := harRequest_ok hq
  rw [a5, hu, reHost_noPath n1 n2]

private def sampleEntry : HarEntry :=
  { url := b!"http://b.example/x?y", scheme := b!"http", path := b!"/x", query := b!"y",
    method := b!"GET", reqVersion := b!"HTTP/1.1", reqHeaders := [(b!"Host", b!"a.example")],
    status := b!"200", statusText := b!" ", resVersion := b!"HTTP/1.1", resHeaders := [] }

/-- C54.  A request whose Host line says `a.example` ends up with `:host` = `b.example`. -/
theorem C54_host_header_lost :
    ∃ q s, har2hdrs lower isWs [sampleEntry] = .ok ([q], [s]) ∧
      (b!"Host", b!"a.example") ∈ sampleEntry.reqHeaders ∧ q.get? b!":host" = some b!"b.example" :=
  ⟨_, _, rfl, by decide, by decide +kernel⟩

example : (har2hdrs lower isWs [sampleEntry]).toOption.map (·.2) =
    some [[(b!":status", b!"200"), (b!":status-text", b!"OK"), (b!":version", b!"HTTP/1.1")]] := by
  decide +kernel

/-! ### C56, C57 -/

/-- C56.  After a session, every codec name has exactly one size and one ratio per message, and no
other name has any. -/
theorem C56_one_result_per_message {σ : Type} (ord : List Hdr → List Hdr) (baseline : Str)
    (cs : List (Codec σ × σ)) (ms : List (Dict Str Str × Str)) (r : Results) (mms : List (List Str))
    (h : processSession ord baseline cs ms = .ok (r, mms)) :
    (∀ c ∈ cs, (sizesOf r.sizes c.1.name).length = ms.length ∧
      ((r.ratios.get? c.1.name).getD []).length = ms.length) ∧
    ∀ n, n ∉ cs.map (·.1.name) → r.sizes.has n = false := by
  obtain ⟨h1, h2, _⟩ := processLoop_ok ord baseline ms cs _ _ _ h
  constructor
  · intro c hc
    obtain ⟨a1, a2⟩ := h1 c.1.name (List.mem_map.2 ⟨c, hc, rfl⟩)
    refine ⟨?_, by simpa using a2⟩
    have : sizesOf r.sizes c.1.name = (r.sizes.get? c.1.name).getD [] := by
      unfold sizesOf; cases r.sizes.get? c.1.name <;> rfl
    rw [this]; simpa using a1
  · intro n hn
    simp [Dict.has, (h2 n hn).1]

/-- C56.  The ratios recorded for a message are size : baseline size (1 for the baseline). -/
theorem C56_ratios (baseline : Str) (results : Dict Str Nat) (hwf : results.WF) (r r' : Results)
    (h : recordAll baseline results results r = .ok r') (n : Str) (size : Nat)
    (hn : results.get? n = some size) :
    r'.sizes.get? n = some ((r.sizes.get? n).getD [] ++ [size]) ∧
    (n = baseline → r'.ratios.get? n = some ((r.ratios.get? n).getD [] ++ [(1, 1)])) ∧
    (n ≠ baseline → ∃ b, results.get? baseline = some b ∧ b ≠ 0 ∧
      r'.ratios.get? n = some ((r.ratios.get? n).getD [] ++ [(size, b)])) := by
  obtain ⟨h1, h2, h3⟩ := recordAll_ok baseline results results r r' hwf h n
  rw [hn] at h1 h2
  refine ⟨h1, fun e => ?_, fun e => ?_⟩
  · rw [h2]; simp [e]
  · have h4 := h3 n (Dict.mem_keys_of_mem (Dict.get?_mem hn)) e
    cases hb : results.get? baseline with
    | none => rw [hb] at h4; exact absurd rfl h4
    | some b =>
      rw [hb] at h4 h2
      refine ⟨b, rfl, h4, ?_⟩
      rw [h2]; simp [e]

/-- C56.  With codecs that work and produce output, a session with messages ends in KeyError
exactly when no codec is registered under the baseline's name. -/
theorem C56_baseline_key_error {σ : Type} (ord : List Hdr → List Hdr) (baseline : Str)
    (cs : List (Codec σ × σ)) (ms : List (Dict Str Str × Str)) (hm : ms ≠ []) (hc : cs ≠ [])
    (ht : ∀ c ∈ cs, c.1.Total) :
    (processSession ord baseline cs ms = .error .key ↔ baseline ∉ cs.map (·.1.name)) ∧
    ((∃ q, processSession ord baseline cs ms = .ok q) ↔ baseline ∈ cs.map (·.1.name)) := by
  obtain ⟨h1, h2⟩ := processLoop_key ord baseline ms cs { sizes := [], ratios := [] } ht
  unfold processSession
  by_cases hb : baseline ∈ cs.map (·.1.name)
  · obtain ⟨q, hq⟩ := h2 (Or.inr (Or.inr hb))
    rw [hq]
    exact ⟨⟨fun h => (by cases h), fun h => absurd hb h⟩, ⟨fun _ => hb, fun _ => ⟨q, rfl⟩⟩⟩
  · rw [h1 ⟨hm, hc, hb⟩]
    refine ⟨⟨fun _ => hb, fun _ => rfl⟩, ⟨?_, fun h => absurd h hb⟩⟩
    rintro ⟨q, hq⟩; cases hq

/-- C56.  A baseline given without parameters (and not in a subpackage) registers under the name
it was given with, and it is always among the codecs that are run. -/
theorem C56_plain_baseline_registered (ws : Nat → Bool) (baseline : Str) (names : List Str)
    (h1 : 61 ∉ baseline) (h2 : 46 ∉ baseline) :
    baseline ∈ codecList baseline names ∧
    ∃ m ps, parseCodec ws baseline = .ok (m, ps) ∧ codecName m ps = .ok baseline := by
  refine ⟨?_, baseline, [], parseCodec_plain ws h1, codecName_plain h2⟩
  unfold codecList
  split
  · assumption
  · simp

/-- C56.  A baseline given with parameters never matches a registered name, whatever codecs are
run: the session ends in KeyError (by `C56_baseline_key_error`). -/
theorem C56_baseline_with_parameters (ws : Nat → Bool) (modName params : Str)
    (hparen : 40 ∉ modName) (name : Str) (m : Str) (ps : List Str) (hp : parseCodec ws name = .ok (m, ps))
    (registered : Str) (hr : codecName m ps = .ok registered) :
    registered ≠ modName ++ b!"=" ++ params := by
  have hm61 : 61 ∉ m ∨ ps = [] ∧ 61 ∉ m := by
    unfold parseCodec at hp
    cases hs : splitOnce 61 name with
    | none =>
      rw [hs] at hp
      cases hp
      exact Or.inr ⟨rfl, splitOnce_none.1 hs⟩
    | some q =>
      obtain ⟨a, b⟩ := q
      rw [hs] at hp
      simp only at hp
      split at hp
      · cases hp; exact Or.inl (splitOnce_some hs).2
      · cases hp
  have hm61' : 61 ∉ m := hm61.elim id (·.2)
  unfold codecName at hr
  cases hl : (splitOn 46 (b!"compressor." ++ m)).getLast? with
  | none => rw [hl] at hr; cases hr
  | some n =>
    rw [hl] at hr
    have hn : 61 ∉ n := by
      have hmem := List.mem_of_getLast? hl
      obtain ⟨_, a, b, he, _⟩ := mem_splitOn.1 hmem
      intro hc
      have : 61 ∈ b!"compressor." ++ m := by rw [he]; simp [hc]
      rcases List.mem_append.1 this with h | h
      · revert h; decide
      · exact hm61' h
    simp only at hr
    split at hr
    · cases hr
      intro e
      apply hn
      rw [e]; simp
    · cases hr
      intro e
      have e' : n ++ 32 :: 40 :: (joinWith b!", " ps ++ b!")") = modName ++ 61 :: params := by
        simpa using e
      rcases List.append_eq_append_iff.1 e' with ⟨x, h1, h2⟩ | ⟨x, h1, h2⟩
      · -- `modName = n ++ x`
        cases x with
        | nil => simp at h2
        | cons y ys =>
          simp only [List.cons_append, List.cons.injEq] at h2
          cases ys with
          | nil => simp at h2
          | cons z zs =>
            simp only [List.cons_append, List.cons.injEq] at h2
            apply hparen
            rw [h1, ← h2.2.1]; simp
      · -- `n = modName ++ x`
        cases x with
        | nil => simp at h2
        | cons y ys =>
          simp only [List.cons_append, List.cons.injEq] at h2
          apply hn
          rw [h1, ← h2.1]; simp

example : parseCodec isWs b!"delta=\"max_byte_size=4096, x\"" = .ok (b!"delta", [b!"max_byte_size=4096", b!"x"]) := by
  decide +kernel
example : codecName b!"delta" [b!"max_byte_size=4096", b!"x"] = .ok b!"delta (max_byte_size=4096, x)" := by
  decide +kernel

/-- An identity codec (sizes are the number of headers plus one), for the examples. -/
private def idCodec (name : Str) (keep : Nat) : Codec (List (Dict Str Str)) where
  name := name
  compress s h _ := .ok (s ++ [h.take keep], List.replicate (h.length + 1) 0)
  decompress s _ := match s with
    | [] => .ok ([], [])
    | h :: s => .ok (s, h)

example : (idCodec b!"id" 5).Total := by
  intro s h host
  refine ⟨_, _, rfl, by simp, Or.inr ?_⟩
  cases s <;> exact ⟨_, rfl⟩

/-- C57.  process_message reports a mismatch for exactly those codecs whose decompressor gave back
headers that the tester distinguishes from the (filtered) headers given to the compressor. -/
theorem C57_mismatch_iff {σ : Type} (ord : List Hdr → List Hdr) (hord : ∀ l, (ord l).Perm l)
    (cs : List (Codec σ × σ)) (hdrs : Dict Str Str) (host : Str) (m : MsgResult σ)
    (h : processMessage ord cs hdrs host = .ok m) (n : Str) :
    n ∈ m.mismatches ↔ ∃ c ∈ cs, c.1.name = n ∧ ∃ s1 w s2 d,
      c.1.compress c.2 (filterHeaders hdrs) host = .ok (s1, w) ∧ c.1.decompress s1 w = .ok (s2, d) ∧
      ¬ Equiv (filterHeaders hdrs) d := by
  obtain ⟨os, h1, h2, h3, h4⟩ := processCodecs_ok ord hdrs host cs _ _ h Dict.wf_nil
  clear h2 h3
  rw [h4]
  simp only [List.nil_append, List.mem_map, List.mem_filter]
  clear h4 h
  induction h1 with
  | nil => simp
  | @cons c o cs os hab _ ih =>
    simp only [List.zip_cons_cons, List.mem_cons]
    have hhead : ((match o.back with
        | none => false
        | some d => compareHeaders ord (filterHeaders hdrs) b!"orig" d c.1.name != []) = true) ↔
        ∃ s1 w s2 d, c.1.compress c.2 (filterHeaders hdrs) host = .ok (s1, w) ∧
          c.1.decompress s1 w = .ok (s2, d) ∧ ¬ Equiv (filterHeaders hdrs) d := by
      obtain ⟨s1, w, e1, _, e2⟩ := hab
      rcases e2 with ⟨e2, e3, _⟩ | ⟨d, e2, e3⟩
      · rw [e3]
        simp only [Bool.false_eq_true, false_iff]
        rintro ⟨s1', w', s2, d, f1, f2, _⟩
        rw [e1] at f1; cases f1
        rw [e2] at f2; cases f2
      · rw [e3]
        have := C46_compare_headers_iff ord hord (filterHeaders hdrs) d b!"orig" c.1.name
        constructor
        · intro hne
          refine ⟨s1, w, o.state, d, e1, e2, ?_⟩
          rw [← this]
          simpa using hne
        · rintro ⟨s1', w', s2, d', f1, f2, f3⟩
          rw [e1] at f1; cases f1
          rw [e2] at f2; cases f2
          rw [← this] at f3
          simpa using f3
    constructor
    · rintro ⟨p, ⟨rfl | hp, hf⟩, rfl⟩
      · exact ⟨c, Or.inl rfl, rfl, hhead.1 hf⟩
      · obtain ⟨c', hc', rest⟩ := ih.1 ⟨p, ⟨hp, hf⟩, rfl⟩
        exact ⟨c', Or.inr hc', rest⟩
    · rintro ⟨c', rfl | hc', rfl, hrest⟩
      · exact ⟨(c', o), ⟨Or.inl rfl, hhead.2 hrest⟩, rfl⟩
      · obtain ⟨p, ⟨hp, hf⟩, hn⟩ := ih.2 ⟨c', hc', rfl, hrest⟩
        exact ⟨p, ⟨Or.inr hp, hf⟩, hn⟩

/-- The sizes a codec produces for a session when it is run on its own: it is given the filtered
headers, and (if it has a decompressor) its own output to decompress. -/
inductive AloneSizes {σ : Type} (c : Codec σ) : σ → List (Dict Str Str × Str) → List Nat → Prop
  | nil (s : σ) : AloneSizes c s [] []
  | compressOnly (s s1 : σ) (h : Dict Str Str) (host : Str) (w : List Nat)
      (ms : List (Dict Str Str × Str)) (sizes : List Nat)
      (hc : c.compress s (filterHeaders h) host = .ok (s1, w)) (hd : c.decompress s1 w = .error .notImpl)
      (rest : AloneSizes c s1 ms sizes) : AloneSizes c s ((h, host) :: ms) (w.length :: sizes)
  | both (s s1 s2 : σ) (h back : Dict Str Str) (host : Str) (w : List Nat)
      (ms : List (Dict Str Str × Str)) (sizes : List Nat)
      (hc : c.compress s (filterHeaders h) host = .ok (s1, w)) (hd : c.decompress s1 w = .ok (s2, back))
      (rest : AloneSizes c s2 ms sizes) : AloneSizes c s ((h, host) :: ms) (w.length :: sizes)

theorem sizes_get {σ : Type} (l : List ((Codec σ × σ) × Outcome σ)) : ∀ (d : Dict Str Nat),
    (l.map (·.1.1.name)).Nodup → ∀ p ∈ l,
    (l.foldl (fun d p => Dict.set d p.1.1.name p.2.size) d).get? p.1.1.name = some p.2.size := by
  have hother : ∀ (l : List ((Codec σ × σ) × Outcome σ)) (d : Dict Str Nat) (n : Str),
      n ∉ l.map (·.1.1.name) →
      (l.foldl (fun d p => Dict.set d p.1.1.name p.2.size) d).get? n = d.get? n := by
    intro l
    induction l with
    | nil => intro d n _; rfl
    | cons p l ih =>
      intro d n hn
      simp only [List.map_cons, List.mem_cons, not_or] at hn
      rw [List.foldl_cons, ih _ _ hn.2, Dict.get?_set, if_neg (Ne.symm hn.1)]
  induction l with
  | nil => intro d _ p hp; cases hp
  | cons q l ih =>
    intro d hnd p hp
    obtain ⟨n1, n2⟩ := List.nodup_cons.1 hnd
    rw [List.foldl_cons]
    rcases List.mem_cons.1 hp with rfl | hp
    · rw [hother _ _ _ n1, Dict.get?_set, if_pos rfl]
    · exact ih _ n2 p hp

/-- C58.  The sizes recorded for a codec are those it produces when run alone on the session:
the lengths of what its compressor returns for the filtered headers, independent of the other
codecs. -/
theorem C58_codecs_measured_independently {σ : Type} (ord : List Hdr → List Hdr) (baseline : Str)
    (cs : List (Codec σ × σ)) (ms : List (Dict Str Str × Str)) (r : Results) (mms : List (List Str))
    (hnames : (cs.map (·.1.name)).Nodup)
    (h : processSession ord baseline cs ms = .ok (r, mms)) (c : Codec σ) (s : σ) (hc : (c, s) ∈ cs) :
    AloneSizes c s ms (sizesOf r.sizes c.name) := by
  suffices ∀ (ms : List (Dict Str Str × Str)) (cs : List (Codec σ × σ)) (r0 r : Results)
      (mms : List (List Str)) (s : σ), (cs.map (·.1.name)).Nodup → (c, s) ∈ cs →
      processLoop ord baseline ms cs r0 = .ok (r, mms) →
      ∃ sizes, AloneSizes c s ms sizes ∧
        sizesOf r.sizes c.name = sizesOf r0.sizes c.name ++ sizes by
    obtain ⟨sizes, h1, h2⟩ := this ms cs _ _ _ s hnames hc h
    rw [h2]
    simpa [sizesOf, Dict.get?] using h1
  clear h hnames hc
  intro ms
  induction ms with
  | nil =>
    intro cs r0 r mms s _ _ h
    cases h
    exact ⟨[], .nil s, by simp⟩
  | cons m ms ih =>
    obtain ⟨hdrs, host⟩ := m
    intro cs r0 r mms s hnd hc h
    rw [processLoop] at h
    cases h1 : processMessage ord cs hdrs host with
    | error e => rw [h1] at h; cases h
    | ok m =>
      rw [h1] at h
      simp only at h
      cases h2 : recordAll baseline m.sizes m.sizes r0 with
      | error e => rw [h2] at h; cases h
      | ok r1 =>
        rw [h2] at h
        simp only at h
        cases h3 : processLoop ord baseline ms m.states r1 with
        | error e => rw [h3] at h; cases h
        | ok q =>
          obtain ⟨r2, mms'⟩ := q
          rw [h3] at h
          cases h
          obtain ⟨os, d1, d2, d3, _⟩ := processCodecs_ok ord hdrs host cs _ _ h1 Dict.wf_nil
          have hlen := d1.length_eq
          have hzn : (cs.zip os).map (·.1.1.name) = cs.map (·.1.name) := by
            have : (cs.zip os).map (·.1) = cs := List.map_fst_zip (by omega)
            conv_rhs => rw [← this]
            simp
          have hsk := sizes_keys (cs.zip os) [] Dict.wf_nil
          rw [← d3] at hsk
          obtain ⟨o, hco⟩ : ∃ o, ((c, s), o) ∈ cs.zip os := by
            have : (cs.zip os).map (·.1) = cs := List.map_fst_zip (by omega)
            rw [← this] at hc
            obtain ⟨⟨a, o⟩, h1, rfl⟩ := List.mem_map.1 hc
            exact ⟨o, h1⟩
          have hdoes : Does hdrs host (c, s) o := by
            have := List.forall₂_iff_zip.1 d1
            exact this.2 hco
          have hst : (c, o.state) ∈ m.states := by
            rw [d2]; exact List.mem_append_right _ (List.mem_map.2 ⟨_, hco, rfl⟩)
          have hnd' : (m.states.map (·.1.name)).Nodup := by
            have : m.states.map (·.1.name) = cs.map (·.1.name) := by
              rw [d2, ← hzn]; simp
            rw [this]; exact hnd
          obtain ⟨sizes, a1, a2⟩ := ih _ _ _ _ _ hnd' hst h3
          have hsz : m.sizes.get? c.name = some o.size := by
            rw [d3]; exact sizes_get _ _ (by rw [hzn]; exact hnd) _ hco
          have hrec := (recordAll_ok baseline m.sizes m.sizes r0 r1 hsk.1 h2 c.name).1
          rw [hsz] at hrec
          have hr1 : sizesOf r1.sizes c.name = sizesOf r0.sizes c.name ++ [o.size] := by
            unfold sizesOf
            rw [hrec]
            cases r0.sizes.get? c.name <;> rfl
          refine ⟨o.size :: sizes, ?_, by rw [a2, hr1]; simp⟩
          obtain ⟨s1, w, e1, e2, e3⟩ := hdoes
          rw [e2]
          rcases e3 with ⟨f1, _, f3⟩ | ⟨d, f1, _⟩
          · rw [f3] at a1; exact .compressOnly _ _ _ _ _ _ _ e1 f1 a1
          · exact .both _ _ _ _ _ _ _ _ _ e1 f1 a1

example : (processSession id b!"good" [(idCodec b!"good" 9, []), (idCodec b!"bad" 1, [])]
    [([(b!"a", b!"1"), (b!"b", b!"2")], b!"h")]).toOption =
    some (⟨[(b!"good", [3]), (b!"bad", [3])], [(b!"good", [(1, 1)]), (b!"bad", [(3, 3)])]⟩, [[b!"bad"]]) := by
  decide +kernel
example : (processSession id b!"good=x" [(idCodec b!"good (x)" 9, [])]
    [([(b!"a", b!"1")], b!"h")]) = .error .key := by decide +kernel

end Verif.Props
