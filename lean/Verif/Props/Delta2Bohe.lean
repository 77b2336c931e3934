import Verif.Delta2Bohe.RepeatLemmas
import Verif.Delta2Bohe.HeardLemmas
import Verif.Props.DeltaBohe
/-
Properties C105 - C109: compressor/delta2_bohe.
-/
namespace Verif.Props
open Verif Verif.Bits Verif.Bits.Spec Verif.Huff Verif.Huff.Spec Verif.Delta2Bohe Verif.Delta2Bohe.Spec

/-! ### C105: the storage -/

theorem within_iff (hist : List Hdr) (m : Nat) : InLimits ((entriesOf hist).drop m) ↔ Within (hist.drop m) := by
  have h1 : (entriesOf hist).map Entry.size = hist.map fun h => h.1.length + h.2.length := by
    apply List.ext_getElem?
    intro j
    simp [entriesOf, List.getElem?_zipIdx, Option.map_map, Function.comp_def, Entry.size, Nat.add_comm]
  unfold InLimits Within sizeSum
  rw [List.map_drop, h1, ← List.map_drop]
  simp [entriesOf]

/-- C105.  Whatever headers are stored, each at most 16384 bytes long: no error; the storage holds the longest part of the history that
has at most 1024 headers and 16384 bytes, with the numbers 65 to 65536 in turn. -/
theorem C105_content (hist : List Hdr) (hsz : ∀ h ∈ hist, h.1.length + h.2.length ≤ 16384) : ∃ c0 c n, Codec.init = .ok c0 ∧
    storeHdrs hist c0 = .ok c ∧ n ≤ hist.length ∧ Within (hist.drop n) ∧ (∀ m < n, ¬ Within (hist.drop m)) ∧
    c.lru.ring.map (fun e => (e.key, e.val)) = hist.drop n ∧ ∀ (j : Nat) (e : Entry), c.lru.ring[j]? = some e → e.seq = number (n + j) := by
  obtain ⟨n, c, e, -, h⟩ := storeHdrs_holds hist (c := { static := staticLru, lru := lru0 }) lru0_holds hsz
  rw [List.nil_append] at h
  have hr := h.ringOf
  refine ⟨_, c, n, init_eq, e, h.le, ?_, ?_, ?_, ?_⟩
  · rw [← within_iff, ← h.ring]; exact h.fits
  · intro m hm; rw [← within_iff]; exact h.most m hm
  · apply List.ext_getElem?
    intro j
    rw [List.getElem?_map, hr.get]
    simp [Option.map_map, Function.comp_def]
  · intro j e he
    rw [hr.get, Option.map_eq_some_iff] at he
    obtain ⟨x, -, rfl⟩ := he
    rfl

/-- What `C105_content` says of a state. -/
structure Stored (hist : List Hdr) (n : Nat) (c : Codec) : Prop where
  start : ∃ c0, Codec.init = .ok c0 ∧ storeHdrs hist c0 = .ok c
  fits : ∀ h ∈ hist, h.1.length + h.2.length ≤ 16384
  le : n ≤ hist.length
  within : Within (hist.drop n)
  most : ∀ m < n, ¬ Within (hist.drop m)

theorem Stored.holds {hist : List Hdr} {n : Nat} {c : Codec} (h : Stored hist n c) : Holds c.lru hist n ∧ c.static = staticLru := by
  obtain ⟨n', c', e, hst, h'⟩ := storeHdrs_holds hist (c := { static := staticLru, lru := lru0 }) lru0_holds h.fits
  obtain ⟨c0, e0, e1⟩ := h.start
  rw [init_eq] at e0
  cases e0
  rw [e] at e1
  cases e1
  rw [List.nil_append] at h'
  have hn : n' = n := by
    rcases Nat.lt_trichotomy n' n with hlt | he | hlt
    · exact absurd ((within_iff hist n').1 (by rw [← h'.ring]; exact h'.fits)) (h.most n' hlt)
    · exact he
    · exact absurd ((within_iff hist n).2 h.within) (h'.most n hlt)
  subst hn
  exact ⟨h', hst⟩

/-- C105.  A header of more than 16384 bytes is refused after everything has been removed for it. -/
theorem C105_large (hist : List Hdr) (n : Nat) (c : Codec) (h : Stored hist n c) (k v : Str) (hl : 16384 < k.length + v.length) :
    insertVal c k v = .error .index := by
  rw [insertVal_insL, insL_large h.holds.1.lim k v (by omega)]
  rfl

/-- C105, as long as the numbers in the storage have not started again: the number of a header gives that header. -/
theorem C105_lookup_partial (hist : List Hdr) (n : Nat) (c : Codec) (h : Stored hist n c) (j : Nat) (h1 : n ≤ j) (h2 : j < hist.length)
    (hw : j / 65472 = n / 65472) : lookupFromIdx c (number j) = .ok ⟨hist[j].1, hist[j].2, number j⟩ := by
  obtain ⟨hh, hs⟩ := h.holds
  have : ¬ number j < c.static.ring.length := by rw [hs, static_len]; unfold number; omega
  rw [lookupFromIdx, if_neg this]
  have := holds_lookup hh j h1 h2
  rw [if_pos hw] at this
  exact this

/-- C105.  After the numbers have started again, the number of a new header gives the header that was stored 64 later, or an error. -/
theorem C105_lookup_false (hist : List Hdr) (n : Nat) (c : Codec) (h : Stored hist n c) (j : Nat) (h1 : n ≤ j) (h2 : j < hist.length)
    (hw : j / 65472 ≠ n / 65472) : lookupFromIdx c (number j) =
      if hj : j + 64 < hist.length then .ok ⟨hist[j + 64].1, hist[j + 64].2, number (j + 64)⟩ else .error .index := by
  obtain ⟨hh, hs⟩ := h.holds
  have : ¬ number j < c.static.ring.length := by rw [hs, static_len]; unfold number; omega
  rw [lookupFromIdx, if_neg this]
  have := holds_lookup hh j h1 h2
  rw [if_neg hw] at this
  exact this

/-- C105.  The search finds the newest header with the name, without the first one of the storage; it does not find an older header
with the same name and the right value. -/
theorem C105_find (hist : List Hdr) (n : Nat) (c : Codec) (h : Stored hist n c) (k v : Str) (i : Nat) :
    ((findEntryIdx c k v).1 = some i ↔ (∃ j, Newest (hist.drop n) k j ∧ i = number (n + j)) ∨
      ((∀ j, ¬ Newest (hist.drop n) k j) ∧ Newest defaultKvs k i)) ∧
    ((findEntryIdx c k v).2 = some i ↔ (∃ j, Newest (hist.drop n) k j ∧ (hist.drop n)[j]? = some (k, v) ∧ i = number (n + j)) ∨
      ((∀ j, Newest (hist.drop n) k j → (hist.drop n)[j]? ≠ some (k, v)) ∧ Newest defaultKvs k i ∧ defaultKvs[i]? = some (k, v))) :=
  findEntryIdx_newest h.holds.1.ringOf h.holds.2 k v i

/-- The storage after some headers. -/
def storedIn (hist : List Hdr) : Py Codec := do
  let c ← Codec.init
  storeHdrs hist c

/-- C105.  A header that is in the storage need not be found: the only one, an older one, the first name of the static table. -/
theorem C105_find_false :
    ((storedIn [(b!"x", b!"1")]).map fun c => (c.lru.ring.length, findEntryIdx c b!"x" b!"1")) = .ok (1, none, none) ∧
    ((storedIn [(b!"y", b!"0"), (b!"x", b!"1"), (b!"x", b!"2")]).map fun c => (c.lru.ring.length, findEntryIdx c b!"x" b!"1")) = .ok (3, some 67, none) ∧
    ((storedIn []).map fun c => findEntryIdx c b!"date" b!"") = .ok (none, none) := by
  decide +kernel

theorem within_replicate (n : Nat) (x : Hdr) (l : List Hdr) (hx : x.1.length + x.2.length = 1) (hl : (l.map fun h => h.1.length + h.2.length).sum ≤ l.length)
    (hn : n + l.length ≤ 1024) : Within (List.replicate n x ++ l) := by
  refine ⟨by simpa using hn, ?_⟩
  rw [List.map_append, List.map_replicate, List.sum_append, List.sum_replicate_nat, hx, Nat.mul_one]
  omega

/-- C105.  65537 headers, the last one with another name: number 65 is that of header 65472, but it gives the last one. -/
theorem C105_wrap_false : ∃ n c, Stored (List.replicate 65536 (b!"a", []) ++ [(b!"b", [])]) n c ∧ n ≤ 65472 ∧
    c.lru.ring[65472 - n]? = some ⟨b!"a", [], 65⟩ ∧ lookupFromIdx c 65 = .ok ⟨b!"b", [], 129⟩ := by
  obtain ⟨N, hN⟩ : ∃ N, N = 65536 := ⟨_, rfl⟩
  rw [← hN]
  have hf : ∀ h ∈ List.replicate N ((b!"a", []) : Hdr) ++ [(b!"b", [])], h.1.length + h.2.length ≤ 16384 := by
    intro h hh
    rcases List.mem_append.1 hh with hh | hh
    · rw [List.eq_of_mem_replicate hh]; decide
    · rw [List.mem_singleton.1 hh]; decide
  obtain ⟨c0, c, n, e0, e1, hle, hw, hm, -, -⟩ := C105_content _ hf
  have hst : Stored _ n c := ⟨⟨c0, e0, e1⟩, hf, hle, hw, hm⟩
  have hlen : (List.replicate N ((b!"a", []) : Hdr) ++ [(b!"b", [])]).length = N + 1 := by simp
  have hn1 : 64513 ≤ n := by
    have := hw.1
    rw [List.length_drop, hlen] at this
    omega
  have hn2 : n ≤ 64513 := by
    by_contra hc
    refine hm 64513 (by omega) ?_
    rw [List.drop_append_of_le_length (by simp; omega), List.drop_replicate]
    exact within_replicate _ _ _ rfl (by decide) (by simp; omega)
  have hn : n = 64513 := by omega
  subst hn
  have hg : ∀ j (h : j < (List.replicate N ((b!"a", []) : Hdr) ++ [(b!"b", [])]).length), (List.replicate N ((b!"a", []) : Hdr) ++ [(b!"b", [])])[j] =
      if j < N then (b!"a", []) else (b!"b", []) := by
    intro j h
    rw [List.getElem_append]
    simp only [List.length_replicate, List.getElem_replicate, List.getElem_singleton, dite_eq_ite]
  refine ⟨_, c, hst, by omega, ?_, ?_⟩
  · have := holds_get hst.holds.1 65472 (by omega) (by omega)
    rw [hg, if_pos (by omega)] at this
    exact this
  · have := C105_lookup_false _ _ c hst 65472 (by omega) (by omega) (by decide)
    rw [dif_pos (by omega)] at this
    rw [hg, if_neg (by omega)] at this
    exact this

/-- Three headers: the storage is within its limits, the last one is found and can be looked up. -/
example : ((storedIn [(b!"y", b!"0"), (b!"x", b!"1"), (b!"x", b!"2")]).map fun c => (c.lru.ring.map fun e => (e.key, e.val, e.seq), findEntryIdx c b!"x" b!"2")) =
    .ok ([(b!"y", b!"0", 65), (b!"x", b!"1", 66), (b!"x", b!"2", 67)], some 67, some 67) := by decide +kernel
example : Within [(b!"y", b!"0"), (b!"x", b!"1"), (b!"x", b!"2")] ∧ 2 / 65472 = 0 / 65472 := by
  refine ⟨⟨?_, ?_⟩, ?_⟩ <;> decide
/-- The search of C105: the newest header with the name is the third. -/
example : Newest [(b!"y", b!"0"), (b!"x", b!"1"), (b!"x", b!"2")] b!"x" 2 := by
  refine ⟨by decide, ⟨_, rfl⟩, ?_⟩
  intro i hi v
  rw [List.getElem?_eq_none (by simp; omega)]
  simp

/-! ### C106: the two ends -/

/-- A message for a header group. -/
structure Sent106 where
  gid : Nat
  headers : List Hdr
  orders : Orders

/-- The operations of a session. -/
def sendAll (enc : Str → Str → Py Str) : List Sent106 → Codec → Py (Codec × List (Nat × Delta2Bohe.Instrs))
  | [], c => .ok (c, [])
  | m :: ms, c => do
    let (c, g) ← makeOperations enc m.orders c m.headers m.gid
    let (c, gs) ← sendAll enc ms c
    pure (c, (m.gid, g) :: gs)

/-- A receiver that executes the operations of a session. -/
def hearAll : List (Nat × Delta2Bohe.Instrs) → Codec → Py (Codec × List (Dict Str Str))
  | [], c => .ok (c, [])
  | (gid, g) :: gs, c => do
    let (c, h) ← receive c g gid
    let (c, hs) ← hearAll gs c
    pure (c, h :: hs)

/-- Both ends have the same headers under the same numbers and the same header groups. -/
structure InStep106 (c r : Codec) : Prop where
  static : r.static = c.static
  lru : r.lru = c.lru
  groups : ∀ gid i, (∃ g, r.groups.get? gid = some g ∧ i ∈ g.store.keys) ↔ ∃ g, c.groups.get? gid = some g ∧ i ∈ g.store.keys

theorem _root_.Verif.Delta2Bohe.Same.inStep {c r : Codec} (h : Same c r) : InStep106 c r := by
  have key : ∀ (d : Codec) gid i, (∃ g, d.groups.get? gid = some g ∧ i ∈ g.store.keys) ↔ InG d.groups gid i := by
    intro d gid i
    constructor
    · rintro ⟨g, h1, h2⟩; exact (inG_keys h1 i).2 h2
    · intro h1
      obtain ⟨g, n, h2, -⟩ := id h1
      exact ⟨g, h2, (inG_keys h2 i).1 h1⟩
  refine ⟨h.receiver.static.trans h.sender.static.symm, h.lru, fun gid i => ?_⟩
  rw [key, key]
  exact h.groups gid i

/-- What is asked of a message in a state: its headers can be encoded and fit into the storage, the numbers do not start again, and
no header that it needs is removed while its new headers are stored. -/
structure Held (enc : Str → Str → Py Str) (m : Sent106) (c : Codec) : Prop where
  has : ∀ l, (m.orders.has l).Perm l
  old : ∀ l, (m.orders.old l).Perm l
  sendable : Sendable enc m.headers
  bytes : weight enc m.headers ≤ 16384
  count : (said enc m.headers).length ≤ 1024
  room : c.lru.seqNum + 2 * (said enc m.headers).length ≤ 65536
  kept : ∀ c1 g, makeBody enc m.orders c m.headers m.gid = .ok (c1, g) → ∀ i,
    (i ∈ g.toggl ∨ ∃ grp e, c.groups.get? m.gid = some grp ∧ i ∈ grp.store.keys ∧ lookupFromIdx c i = .ok e ∧
      (e.key, Except.ok e.val) ∈ said enc m.headers) → i < 65 ∨ ∃ e ∈ c1.lru.ring, e.seq = i

/-- The same for all messages of a session. -/
def AllHeld (enc : Str → Str → Py Str) : List Sent106 → Codec → Prop
  | [], _ => True
  | m :: ms, c => Held enc m c ∧ ∀ c' g, makeOperations enc m.orders c m.headers m.gid = .ok (c', g) → AllHeld enc ms c'

theorem held_fits {enc : Str → Str → Py Str} {m : Sent106} {c r : Codec} (hs : Same c r) (h : Held enc m c) :
    ∃ ps, Fits enc m.orders c m.headers m.gid ps := by
  obtain ⟨ps, hps⟩ := pieces_total h.sendable.encodable
  obtain ⟨hlen, hsum⟩ := pieces_size hps
  have hn := pieces_nodup hps h.sendable
  have hroom := h.room
  have hbytes := h.bytes
  refine ⟨ps, h.has, h.old, hps, hn, by omega, by have := h.count; omega, by omega, ?_⟩
  intro c1 g e i hi
  obtain ⟨c1', X, V, T, C, K, A, B, e1, hsp, hl1, -⟩ := makeBody_spec (gid := m.gid) h.has h.old hs.sender hs.past hps hn (by omega) (by omega)
  rw [e] at e1
  cases e1
  have hl := hsp.len
  have hz := hsp.sizes
  have hszAB : ∀ x ∈ A ++ B, hsize x ≤ 16384 := fun x hx => by have := le_sum_hsize hx; omega
  have hok := (afterL_spec (A ++ B) c.lru hs.sender.lru hszAB (by simp; omega)).1
  rw [← hl1] at hok
  have hin : i < 65 ∨ ∃ e ∈ c1.lru.ring, e.seq = i := by
    refine h.kept c1 _ e i ?_
    rcases hi with ⟨hg, p, hp, hkv⟩ | hi
    · right
      obtain ⟨grp, n, h1, h2⟩ := id hg
      obtain ⟨ent, h3, h4, -⟩ := lookupFromIdx_spec hs.sender (hs.sender.valid _ i hg)
      refine ⟨grp, ent, h1, (inG_keys h1 i).1 hg, h3, ?_⟩
      rw [hkv] at h4
      cases h4
      exact (pieces_said hps).mem_iff.1 (List.mem_map.2 ⟨_, hp, rfl⟩)
    · exact .inl hi
  rcases hin with hin | ⟨ent, hm, rfl⟩
  · exact .inl hin
  · right
    obtain ⟨j, hj, rfl⟩ := List.getElem_of_mem hm
    rw [hok.seqs j hj]
    unfold Lru.first
    omega

theorem c106 {enc : Str → Str → Py Str} : ∀ (ms : List Sent106) {c r : Codec}, Same c r → AllHeld enc ms c →
    ∃ c' r' gs hs, sendAll enc ms c = .ok (c', gs) ∧ hearAll gs r = .ok (r', hs) ∧ List.Forall₂ (fun m h => Heard enc m.headers h) ms hs ∧
      Same c' r' := by
  intro ms
  induction ms with
  | nil => intro c r hs _; exact ⟨c, r, [], [], rfl, rfl, .nil, hs⟩
  | cons m ms ih =>
    intro c r hs ha
    obtain ⟨ps, hf⟩ := held_fits hs ha.1
    obtain ⟨c2, g, r2, es, e1, e2, hs2, hp, -⟩ := step_spec hs hf
    obtain ⟨c3, r3, gs, hs', e3, e4, hh, hs3⟩ := ih hs2 (ha.2 c2 g e1)
    refine ⟨c3, r3, (m.gid, g) :: gs, _ :: hs', ?_, ?_, .cons (heard hf.pieces ha.1.sendable.names hp) hh, hs3⟩
    · simp only [sendAll, e1, e3, bind, Except.bind, pure, Except.pure]
    · simp only [hearAll, e2, e4, bind, Except.bind, pure, Except.pure]

/-- C106, for sessions in which no message loses a header that it needs and the numbers do not start again: no error at either end, the
headers of every message are heard, and both ends hold the same. -/
theorem C106_partial (enc : Str → Str → Py Str) (c0 : Codec) (h0 : Codec.init = .ok c0) (ms : List Sent106) (hm : AllHeld enc ms c0) :
    ∃ c r gs hs, sendAll enc ms c0 = .ok (c, gs) ∧ hearAll gs c0 = .ok (r, hs) ∧
      List.Forall₂ (fun m h => Heard enc m.headers h) ms hs ∧ InStep106 c r := by
  obtain ⟨c0', e, hs⟩ := small_init 0
  rw [h0] at e
  cases e
  obtain ⟨c, r, gs, hs', e1, e2, e3, e4⟩ := c106 ms hs.same hm
  exact ⟨c, r, gs, hs', e1, e2, e3, e4.inStep⟩

theorem small_held {enc : Str → Str → Py Str} {m : Sent106} {c r : Codec} {M S N : Nat} (hi : Small M c r S N)
    (ho : ∀ l, (m.orders.has l).Perm l) (ho' : ∀ l, (m.orders.old l).Perm l) (hv : Sendable enc m.headers)
    (hS : S + 2 * weight enc m.headers ≤ 16384) (hN : N + 2 * (said enc m.headers).length ≤ 1024) : Held enc m c := by
  obtain ⟨ps, hps⟩ := pieces_total hv.encodable
  obtain ⟨hlen, hsum⟩ := pieces_size hps
  have hseq := small_seq hi
  have hb := hi.bytes
  have hc := hi.count
  refine ⟨ho, ho', hv, by omega, by omega, by omega, ?_⟩
  intro c1 g e i hi'
  obtain ⟨c1', X, V, T, C, K, A, B, e1, hsp, hl1, hrest⟩ := makeBody_spec (gid := m.gid) ho ho' hi.same.sender hi.same.past hps
    (pieces_nodup hps hv) (by omega) (by omega)
  rw [e] at e1
  cases e1
  have hl := hsp.len
  have hz := hsp.sizes
  obtain ⟨a1, hf, -, a4⟩ := afterL_room (A ++ B) c.lru hi.same.sender.lru (by simp; omega) (by omega) (by simp; omega)
  rw [← hl1] at a1 hf a4
  have hff := hi.first
  have hal : ∀ i, Alive c1.lru i := by
    intro i
    unfold Alive
    omega
  obtain ⟨-, -, -, -, hT, -, -⟩ := hrest (fun i _ => hal i) (by omega)
  have hus : Usable c i := by
    rcases hi' with hi' | ⟨grp, ent, h1, h2, -⟩
    · rcases List.mem_append.1 hi' with h | h
      · exact (hsp.vOut i h).2
      · exact hi.same.sender.valid _ i ((hT i).1 h).1
    · exact hi.same.sender.valid _ i ((inG_keys h1 i).2 h2)
  rcases hus with h | ⟨h1, h2⟩
  · exact .inl h
  · right
    have hlo := a1.lo
    have hfe : c1.lru.first = 65 := by omega
    unfold Lru.first at hfe
    have hx : i - 65 < c1.lru.ring.length := by omega
    refine ⟨_, List.getElem_mem hx, ?_⟩
    rw [a1.seqs _ hx]
    omega

/-- Small sessions meet the hypothesis of C106. -/
theorem small_allHeld {enc : Str → Str → Py Str} : ∀ (ms : List Sent106) {c r : Codec} {S N : Nat}, Small 512 c r S N →
    (∀ m ∈ ms, (∀ l, (m.orders.has l).Perm l) ∧ (∀ l, (m.orders.old l).Perm l) ∧ Sendable enc m.headers) →
    S + 2 * (ms.map fun m => weight enc m.headers).sum ≤ 16384 → N + 2 * (ms.map fun m => (said enc m.headers).length).sum ≤ 1024 →
    AllHeld enc ms c := by
  intro ms
  induction ms with
  | nil => intro c r S N _ _ _ _; trivial
  | cons m ms ih =>
    intro c r S N hs hv hS hN
    simp only [List.map_cons, List.sum_cons] at hS hN
    obtain ⟨v1, v2, v3⟩ := hv m (by simp)
    refine ⟨small_held hs v1 v2 v3 (by omega) (by omega), fun c' g e => ?_⟩
    obtain ⟨ps, hps⟩ := pieces_total v3.encodable
    obtain ⟨hlen, hsum⟩ := pieces_size hps
    obtain ⟨c2, g2, r2, es, e1, -, hs2, -⟩ := small_step (gid := m.gid) hs v1 v2 hps (pieces_nodup hps v3) (by omega) (by omega) (by omega)
    rw [e] at e1
    cases e1
    exact ih hs2 (fun x hx => hv x (by simp [hx])) (by omega) (by omega)

/-- C106, for sessions of at most 8192 bytes and 512 headers, whatever they are. -/
theorem C106_small_partial (enc : Str → Str → Py Str) (c0 : Codec) (h0 : Codec.init = .ok c0) (ms : List Sent106)
    (ho : ∀ m ∈ ms, (∀ l, (m.orders.has l).Perm l) ∧ ∀ l, (m.orders.old l).Perm l) (hv : ∀ m ∈ ms, Sendable enc m.headers)
    (hb : (ms.map fun m => weight enc m.headers).sum ≤ 8192) (hn : (ms.map fun m => (said enc m.headers).length).sum ≤ 512) :
    ∃ c r gs hs, sendAll enc ms c0 = .ok (c, gs) ∧ hearAll gs c0 = .ok (r, hs) ∧
      List.Forall₂ (fun m h => Heard enc m.headers h) ms hs ∧ InStep106 c r := by
  obtain ⟨c0', e, hs⟩ := small_init 512
  rw [h0] at e
  cases e
  exact C106_partial enc c0 h0 ms (small_allHeld ms hs (fun m hm => ⟨(ho m hm).1, (ho m hm).2, hv m hm⟩) (by omega) (by omega))

/-- No encoding. -/
def plain : Str → Str → Py Str := fun _ v => .ok v

/-- Dictionaries in the order of insertion. -/
def inOrder : Orders := ⟨id, id⟩

/-- The run of a session at both ends, up to the first error. -/
def heardOf (enc : Str → Str → Py Str) (ms : List (Nat × List Hdr)) : Py (List (Dict Str Str)) := do
  let c ← Codec.init
  let (_, gs) ← sendAll enc (ms.map fun m => ⟨m.1, m.2, inOrder⟩) c
  let (_, hs) ← hearAll gs c
  pure hs

/-- Three messages at both ends: a header is sent again, another one is dropped and comes back, a cookie has two crumbs. -/
example : heardOf plain [(1, [(b!":path", b!"/a"), (b!"x", b!"1")]), (1, [(b!":path", b!"/a"), (b!"cookie", b!"a=b; c=d")]),
    (1, [(b!"x", b!"1"), (b!":path", b!"/b")])] =
    .ok [[(b!":path", b!"/a"), (b!"x", b!"1")], [(b!":path", b!"/a"), (b!"cookie", b!"a=b; c=d")], [(b!"x", b!"1"), (b!":path", b!"/b")]] := by
  decide +kernel
/-- The hypotheses of C106. -/
example (c0 : Codec) (h0 : Codec.init = .ok c0) : AllHeld plain [⟨1, [(b!":path", b!"/a"), (b!"cookie", b!"a=b; c=d")], inOrder⟩, ⟨1, [(b!"x", b!"1")], inOrder⟩] c0 := by
  obtain ⟨c0', e, hs⟩ := small_init 512
  rw [h0] at e
  cases e
  refine small_allHeld _ hs ?_ (by decide +kernel) (by decide +kernel)
  intro m hm
  refine ⟨?_, ?_, ?_⟩
  · intro l
    simp only [List.mem_cons, List.not_mem_nil, or_false] at hm
    rcases hm with rfl | rfl <;> exact .refl _
  · intro l
    simp only [List.mem_cons, List.not_mem_nil, or_false] at hm
    rcases hm with rfl | rfl <;> exact .refl _
  · simp only [List.mem_cons, List.not_mem_nil, or_false] at hm
    rcases hm with rfl | rfl
    · refine ⟨by decide, fun x hx => ?_, fun v hv => ?_⟩
      · simp only [said, List.mem_flatMap, List.mem_map] at hx
        obtain ⟨kv, -, y, -, rfl⟩ := hx
        exact ⟨y, rfl⟩
      · have : v = b!"a=b; c=d" := by
          simp only [List.mem_cons, Prod.mk.injEq, List.not_mem_nil, or_false] at hv
          rcases hv with ⟨h, -⟩ | ⟨-, h⟩
          · exact absurd h (by decide)
          · exact h
        subst this
        have h2 : (DeltaBohe.Spec.parts b!"cookie" b!"a=b; c=d").map (plain b!"cookie") = [.ok b!"a=b", .ok b!"c=d"] := by decide +kernel
        rw [h2]
        simp
    · refine ⟨by decide, fun x hx => ?_, fun v hv => ?_⟩
      · simp only [said, List.mem_flatMap, List.mem_map] at hx
        obtain ⟨kv, -, y, -, rfl⟩ := hx
        exact ⟨y, rfl⟩
      · simp only [List.mem_cons, Prod.mk.injEq, List.not_mem_nil, or_false] at hv
        exact absurd hv.1 (by decide)

/-- C106.  A crumb twice in a cookie: if it is known, it is toggled twice and not heard at all. -/
theorem C106_crumbs_false : heardOf plain [(1, [(b!"cookie", b!"")]), (2, [(b!"cookie", b!";")])] =
    .ok [[(b!"cookie", b!"")], []] := by decide +kernel

set_option maxRecDepth 100000 in
/-- C106.  The second message has a header of the first one and a large new one.  They would fit into the storage together, but the old
header is removed while the new one is stored, and not heard. -/
theorem C106_lost_false : (heardOf plain [(1, [(b!"x", List.replicate 8000 97)]), (1, [(b!"x", List.replicate 8000 97), (b!"y", List.replicate 8300 98)])]).map
    (fun hs => hs.map fun h => h.map fun kv => (kv.1, kv.2.length)) = .ok [[(b!"x", 8000)], [(b!"y", 8300)]] := by decide +kernel

set_option maxRecDepth 100000 in
/-- C106.  The third message has a header that is known, which it toggles, and a large new value of a known name, which is stored.  The receiver stores first
and raises when it looks at the header. -/
theorem C106_raise_false : (heardOf plain [(1, [(b!"x", List.replicate 5000 97)]), (2, [(b!"y", List.replicate 100 97)])]).isOk = true ∧
    heardOf plain [(1, [(b!"x", List.replicate 5000 97)]), (2, [(b!"y", List.replicate 100 97)]),
      (3, [(b!"x", List.replicate 5000 97), (b!":path", List.replicate 11300 98)])] = .error .index := by decide +kernel

/-! ### C107: the wire -/

/-- A receiver that is given the bytes of a session. -/
def hearWire (h : Huffman) : List Str → Codec → Py (Codec × List (Dict Str Str))
  | [], c => .ok (c, [])
  | b :: bs, c => do
    let (gid, ops) ← Delta1.realOpsToOps h b
    let c ← execOps c ops gid
    let (c, d) ← generate c gid
    let (c, ds) ← hearWire h bs c
    pure (c, d :: ds)

/-- The ids of the hosts that have been seen are counted. -/
structure Hosts (H : List Str) (c : Compressor) : Prop where
  wf : c.hosts.WF
  sub : ∀ k ∈ c.hosts.keys, k ∈ H
  count : c.hosts.keys.length = c.nextIdx
  ids : ∀ k i, c.hosts.get? k = some i → i ≤ c.nextIdx

theorem Hosts.le {H : List Str} {c : Compressor} (h : Hosts H c) : c.nextIdx ≤ H.length := by
  rw [← h.count]
  exact (List.subperm_of_subset h.wf h.sub).length_le

theorem hosts_step {H : List Str} {c : Compressor} (h : Hosts H c) (norm : Str → Str) (host : Str) (hm : norm host ∈ H) (hH : H.length ≤ 255) :
    ∃ c' gid, groupOf norm c host = .ok (c', gid) ∧ gid < 256 ∧ Hosts H c' ∧ c'.codec = c.codec := by
  unfold groupOf
  cases hg : c.hosts.get? (norm host) with
  | some gid => exact ⟨c, gid, rfl, by have := h.ids _ _ hg; have := h.le; omega, h, rfl⟩
  | none =>
    have hno : norm host ∉ c.hosts.keys := by
      rw [← Dict.get?_none]; exact hg
    have hlt : c.nextIdx + 1 ≤ H.length := by
      have hn : (norm host :: c.hosts.keys).Nodup := List.nodup_cons.2 ⟨hno, h.wf⟩
      have := (List.subperm_of_subset (l₂ := H) hn (by
        intro x hx
        rcases List.mem_cons.1 hx with rfl | hx
        · exact hm
        · exact h.sub x hx)).length_le
      rw [List.length_cons, h.count] at this
      exact this
    have hnext : getNext c.nextIdx = .ok (c.nextIdx + 1) := by
      unfold getNext
      rw [if_neg (by omega)]
    simp only [hnext, bind, Except.bind, pure, Except.pure]
    refine ⟨_, _, rfl, by omega, ?_, rfl⟩
    have hkeys : (c.hosts.set (norm host) (c.nextIdx + 1)).keys = c.hosts.keys ++ [norm host] := by
      rw [Dict.set_new hno]
      simp [Dict.keys]
    refine ⟨h.wf.set _ _, ?_, ?_, ?_⟩
    · intro k hk
      simp only [hkeys] at hk
      rcases List.mem_append.1 hk with hk | hk
      · exact h.sub k hk
      · rw [List.mem_singleton.1 hk]; exact hm
    · simp only [hkeys, List.length_append, h.count, List.length_singleton]
    · intro k i hi
      simp only [Dict.get?_set] at hi
      split at hi
      · cases hi; exact le_rfl
      · have := h.ids k i hi
        simp only
        omega

/-- A message that C107 is about: names that bohe has no encoder for, strings of bytes, not more than 128 headers. -/
structure Simple107 (enc : Str → Str → Py Str) (m : Delta2Bohe.Message) : Prop where
  has : ∀ l, (m.orders.has l).Perm l
  old : ∀ l, (m.orders.old l).Perm l
  sendable : Sendable enc m.headers
  count : (said enc m.headers).length ≤ 128
  names : ∀ x ∈ said enc m.headers, x.1 ∉ Bohe.encoderNames
  bytes : ∀ x ∈ said enc m.headers, (∀ a ∈ x.1, a < 256) ∧ ∀ e, x.2 = .ok e → ∀ a ∈ e, a < 256

theorem c107 {enc : Str → Str → Py Str} {norm : Str → Str} {h : Huffman} (hc : IsCoder1 h) {H : List Str} (hH : H.length ≤ 255) :
    ∀ (ms : List Delta2Bohe.Message) {c : Compressor} {r : Codec} {S N : Nat}, Small 128 c.codec r S N → Hosts H c →
    (∀ m ∈ ms, Simple107 enc m ∧ norm m.host ∈ H) → S + 2 * (ms.map fun m => weight enc m.headers).sum ≤ 16384 →
    N + 2 * (ms.map fun m => (said enc m.headers).length).sum ≤ 1024 →
    ∃ c' bs, Delta2Bohe.compressAll enc norm h ms c = .ok (c', bs) ∧ ((∀ b ∈ bs, b.length ≤ 65536) →
      ∃ r' ds, hearWire h bs r = .ok (r', ds) ∧ List.Forall₂ (fun m d => Heard enc m.headers d) ms ds ∧ Same c'.codec r') := by
  obtain ⟨codes, hk, h257⟩ := hc.codes
  intro ms
  induction ms with
  | nil => intro c r S N hs _ _ _ _; exact ⟨c, [], rfl, fun _ => ⟨r, [], rfl, .nil, hs.same⟩⟩
  | cons m ms ih =>
    intro c r S N hs hh hv hS hN
    simp only [List.map_cons, List.sum_cons] at hS hN
    obtain ⟨vm, vh⟩ := hv m (by simp)
    obtain ⟨c1, gid, e0, hgid, hh1, hcod⟩ := hosts_step hh norm m.host vh hH
    obtain ⟨ps, hps⟩ := pieces_total vm.sendable.encodable
    obtain ⟨hlen, hsum⟩ := pieces_size hps
    have hcount := vm.count
    obtain ⟨c2, g, r2, es, e1, e2, hs2, hp, heff, htog⟩ := small_step (gid := gid) hs vm.has vm.old hps (pieces_nodup hps vm.sendable)
      (by omega) (by omega) (by omega)
    have hmem : ∀ p ∈ ps, (p.1, (Except.ok p.2 : Py Str)) ∈ said enc m.headers := fun p hp =>
      (pieces_said hps).mem_iff.1 (List.mem_map.2 ⟨p, hp, rfl⟩)
    have hcoded := makeOperations_coded hps (fun p hp => vm.names _ (hmem p hp)) e1
    have hok : InstrsOk g := by
      refine ⟨heff.toggl, ?_, ?_⟩
      · intro x hx
        obtain ⟨h1, k, hk⟩ := heff.clone x hx
        exact ⟨h1, (vm.bytes _ (hmem _ hk)).2 _ rfl⟩
      · intro x hx
        have := vm.bytes _ (hmem _ (heff.kvsto x hx))
        exact ⟨this.1, this.2 _ rfl⟩
    obtain ⟨b, -, hb⟩ := wire_total hk h257 (payloadW codes g.groups) gid hgid
    have eb := hb g hok rfl
    obtain ⟨c3, bs, e3, hrest⟩ := ih (c := { c1 with codec := c2 }) (r := r2) (S := S + 2 * (ps.map hsize).sum) (N := N + 2 * ps.length) hs2
      ⟨hh1.wf, hh1.sub, hh1.count, hh1.ids⟩ (fun x hx => hv x (by simp [hx])) (by omega) (by omega)
    refine ⟨c3, b :: bs, ?_, fun hfit => ?_⟩
    · simp only [Delta2Bohe.compressAll, Delta2Bohe.compress, e0, hcod, e1, eb, e3, bind, Except.bind, pure, Except.pure]
    · obtain ⟨r3, ds, e4, hd, hs3⟩ := hrest fun x hx => hfit x (by simp [hx])
      have hst := heff.stored
      have hread := wire_read hk h257 hok hcoded.1 hcoded.2 (by omega) (by omega) (by omega) gid hgid eb (hfit b (by simp))
      simp only [receive, bind, Except.bind] at e2
      cases ex : execOps r g.ops gid with
      | error x => simp [ex] at e2
      | ok r1 =>
        simp only [ex] at e2
        refine ⟨r3, _ :: ds, ?_, .cons (heard hps vm.sendable.names hp) hd, hs3⟩
        simp only [hearWire, hread, ex, e2, e4, bind, Except.bind, pure, Except.pure]

/-- C107, for sessions of at most 8192 bytes and 512 headers, none of them under a name that bohe encodes, with at most 255 hosts.  They are
compressed without error, and if every message fits into a frame, a receiver that is given the bytes hears the headers of every message. -/
theorem C107_partial (enc : Str → Str → Py Str) (norm : Str → Str) (h : Huffman) (hc : IsCoder1 h) (c0 : Codec) (h0 : Codec.init = .ok c0)
    (H : List Str) (hH : H.length ≤ 255) (ms : List Delta2Bohe.Message) (hv : ∀ m ∈ ms, Simple107 enc m ∧ norm m.host ∈ H)
    (hb : (ms.map fun m => weight enc m.headers).sum ≤ 8192) (hn : (ms.map fun m => (said enc m.headers).length).sum ≤ 512) :
    ∃ c bs, Delta2Bohe.compressAll enc norm h ms ⟨c0, [], 0⟩ = .ok (c, bs) ∧ ((∀ b ∈ bs, b.length ≤ 65536) →
      ∃ r ds, hearWire h bs c0 = .ok (r, ds) ∧ List.Forall₂ (fun m d => Heard enc m.headers d) ms ds ∧ InStep106 c.codec r) := by
  obtain ⟨c0', e, hs⟩ := small_init 128
  rw [h0] at e
  cases e
  obtain ⟨c, bs, e1, hr⟩ := c107 (norm := norm) hc hH ms (c := ⟨c0, [], 0⟩) hs ⟨by simp [Dict.WF, Dict.keys], by simp [Dict.keys], rfl, by simp [Dict.get?]⟩
    hv (by omega) (by omega)
  refine ⟨c, bs, e1, fun hfit => ?_⟩
  obtain ⟨r, ds, e2, hd, hs⟩ := hr hfit
  exact ⟨r, ds, e2, hd, hs.inStep⟩

/-- The hypotheses of C107 for a session with two hosts. -/
example : ∀ m ∈ [Delta2Bohe.Message.mk [(b!"x-a", b!"1"), (b!"x-b", b!"22")] b!"a.com:80" inOrder, ⟨[(b!"x-a", b!"1")], b!"b.com", inOrder⟩],
    Simple107 plain m ∧ (fun s => s.takeWhile (· ≠ 58)) m.host ∈ [b!"a.com", b!"b.com"] := by
  intro m hm
  have e1 : said plain [(b!"x-a", b!"1"), (b!"x-b", b!"22")] = [(b!"x-a", .ok b!"1"), (b!"x-b", .ok b!"22")] := rfl
  have e2 : said plain [(b!"x-a", b!"1")] = [(b!"x-a", .ok b!"1")] := rfl
  simp only [List.mem_cons, List.not_mem_nil, or_false] at hm
  rcases hm with rfl | rfl
  · refine ⟨⟨fun l => .refl _, fun l => .refl _, ⟨by decide, ?_, ?_⟩, by rw [e1]; decide, by rw [e1]; decide +kernel, ?_⟩, by decide⟩
    · rw [e1]; simp
    · intro v hv; simp at hv
    · rw [e1]; simp
  · refine ⟨⟨fun l => .refl _, fun l => .refl _, ⟨by decide, ?_, ?_⟩, by rw [e2]; decide, by rw [e2]; decide +kernel, ?_⟩, by decide⟩
    · rw [e2]; simp
    · intro v hv; simp at hv
    · rw [e2]; simp

/-- The operations of a first message with the headers "accept" and ":method". -/
theorem first107 {enc : Str → Str → Py Str} {c0 : Codec} (h0 : Codec.init = .ok c0) {v w : Str} (gid : Nat)
    (ev : enc b!"accept" v = .ok v) (ew : enc b!":method" w = .ok w) (hv : v ≠ []) (hw : w ≠ b!"get") (hlen : v.length + w.length ≤ 8000) :
    ∃ c1, makeOperations enc inOrder c0 [(b!"accept", v), (b!":method", w)] gid =
      .ok (c1, ⟨[], [(9, v, false), (2, w, false)], []⟩) := by
  obtain ⟨c0', e, hi⟩ := small_init 128
  rw [h0] at e
  cases e
  have hc0 : c0 = { static := staticLru, lru := lru0 } := by
    rw [init_eq] at h0
    cases h0
    rfl
  have hps : pieces enc [(b!"accept", v), (b!":method", w)] = .ok [(b!"accept", v), (b!":method", w)] := by
    have h1 : (if b!"accept" = b!"cookie" then DeltaBohe.crumbs v else [v]) = [v] := if_neg (by decide)
    have h2 : (if b!":method" = b!"cookie" then DeltaBohe.crumbs w else [w]) = [w] := if_neg (by decide)
    simp only [pieces, h1, h2, encAll, ev, ew, bind, Except.bind, pure, Except.pure]
    rfl
  have hn : [(b!"accept", v), (b!":method", w)].Nodup := by simp
  have hsz : (([(b!"accept", v), (b!":method", w)] : List Hdr).map hsize).sum = v.length + w.length + 13 := by
    simp [hsize]; omega
  obtain ⟨c1, X, V, T, C, K, A, B, e1, hsp, hl1, hrest⟩ := makeBody_spec (o := inOrder) (gid := gid) (fun l => .refl _) (fun l => .refl _)
    hi.same.sender hi.same.past hps hn (by omega) (by rw [hc0]; simp [lru0])
  obtain ⟨a1, hf, -, -⟩ := afterL_room (A ++ B) c0.lru hi.same.sender.lru (by have := hsp.len; simp at this; rw [hc0]; simp [lru0]; omega)
    (by have := hsp.sizes; rw [hsz] at this; rw [hc0]; simp [lru0] at this ⊢; omega) (by have := hsp.len; simp at this; rw [hc0]; simp [lru0]; omega)
  obtain ⟨-, -, -, -, hT, -, -⟩ := hrest (fun i _ => by unfold Alive; rw [hl1, hf, hi.first]; omega) (by simp)
  have hT0 : T = [] := by
    rw [List.eq_nil_iff_forall_not_mem]
    intro i hi'
    obtain ⟨g, n, h1, -⟩ := ((hT i).1 hi').1
    rw [hc0] at h1
    cases h1
  have hCK : C = [(9, v, false), (2, w, false)] ∧ K = [] := by
    have st : ∀ (k : Str) (u : Str) (i : Nat), findEntryIdx c0 k u = (some i, none) → k ∈ Bohe.encoderNames → ∀ g,
        processKV id gid k u (findOrMake c0 gid) g = .ok (findOrMake c0 gid, { g with clone := g.clone ++ [(i, u, false)] }) := by
      intro k u i hf hk g
      have hm : findOrMake c0 gid = { c0 with groups := [(gid, {})] } := by rw [hc0]; rfl
      have hf' : findEntryIdx (findOrMake c0 gid) k u = (some i, none) := by rw [hm]; exact hf
      have hh : hasKV id (findOrMake c0 gid) gid k u = .ok (findOrMake c0 gid, false) := by
        rw [hm]
        simp [hasKV, theGroup, Dict.get?, Dict.keys, findInGroup, bind, Except.bind, pure, Except.pure]
      simp only [processKV, hh, hf', bind, Except.bind, pure, Except.pure, Bool.false_eq_true, if_false, hk, not_true_eq_false, decide_false]
    have f1 : findEntryIdx c0 b!"accept" v = (some 9, none) := by
      have n1 : Newest defaultKvs b!"accept" 9 := by
        refine ⟨by decide, ⟨_, rfl⟩, fun i hi u hu => ?_⟩
        have := List.mem_of_getElem? (l := defaultKvs.drop 10) (i := i - 10) (a := (b!"accept", u)) (by
          rw [List.getElem?_drop, show 10 + (i - 10) = i by omega]; exact hu)
        have hno : b!"accept" ∉ (defaultKvs.drop 10).map (·.1) := by decide +kernel
        exact hno (List.mem_map.2 ⟨_, this, rfl⟩)
      have hr : RingOf c0.lru.ring [] numberOf := by rw [hc0]; rfl
      have hd : ∀ j, ¬ Newest [] b!"accept" j := by
        intro j hj
        obtain ⟨u, hu⟩ := hj.2.1
        simp at hu
      have hs : c0.static = staticLru := by rw [hc0]
      refine Prod.ext ((findEntryIdx_newest hr hs b!"accept" v 9).1.2 (.inr ⟨hd, n1⟩)) ?_
      cases h2 : (findEntryIdx c0 b!"accept" v).2 with
      | none => rfl
      | some i =>
        rcases (findEntryIdx_newest hr hs b!"accept" v i).2.1 h2 with ⟨j, hj, -⟩ | ⟨-, h3, h4⟩
        · exact absurd hj (hd j)
        · rw [h3.unique n1] at h4
          simp [defaultKvs] at h4
          exact absurd h4 hv
    have f2 : findEntryIdx c0 b!":method" w = (some 2, none) := by
      have n1 : Newest defaultKvs b!":method" 2 := by
        refine ⟨by decide, ⟨_, rfl⟩, fun i hi u hu => ?_⟩
        have := List.mem_of_getElem? (l := defaultKvs.drop 3) (i := i - 3) (a := (b!":method", u)) (by
          rw [List.getElem?_drop, show 3 + (i - 3) = i by omega]; exact hu)
        have hno : b!":method" ∉ (defaultKvs.drop 3).map (·.1) := by decide +kernel
        exact hno (List.mem_map.2 ⟨_, this, rfl⟩)
      have hr : RingOf c0.lru.ring [] numberOf := by rw [hc0]; rfl
      have hd : ∀ j, ¬ Newest [] b!":method" j := by
        intro j hj
        obtain ⟨u, hu⟩ := hj.2.1
        simp at hu
      have hs : c0.static = staticLru := by rw [hc0]
      refine Prod.ext ((findEntryIdx_newest hr hs b!":method" w 2).1.2 (.inr ⟨hd, n1⟩)) ?_
      cases h2 : (findEntryIdx c0 b!":method" w).2 with
      | none => rfl
      | some i =>
        rcases (findEntryIdx_newest hr hs b!":method" w i).2.1 h2 with ⟨j, hj, -⟩ | ⟨-, h3, h4⟩
        · exact absurd hj (hd j)
        · rw [h3.unique n1] at h4
          simp [defaultKvs] at h4
          exact absurd h4.symm hw
    have hpr : procAll id gid [(b!"accept", v), (b!":method", w)] (findOrMake c0 gid) {} =
        .ok (findOrMake c0 gid, ⟨[], [(9, v, false), (2, w, false)], []⟩) := by
      simp only [procAll, st _ _ _ f1 (by decide), st _ _ _ f2 (by decide), bind, Except.bind]
      rfl
    simp only [makeBody, inOrder, headersLoop_eq id gid _ _ _ hps, hpr, bind, Except.bind] at e1
    split at e1
    · cases e1
    split at e1
    · cases e1
    split at e1
    · cases e1
    split at e1
    · cases e1
    simp only [pure, Except.pure, Except.ok.injEq, Prod.mk.injEq, Delta2Bohe.Instrs.mk.injEq] at e1
    exact ⟨e1.2.2.1.symm, e1.2.2.2.symm⟩
  obtain ⟨rfl, rfl⟩ := hCK
  have hV : V = [] := by
    have h1 := hsp.len
    have h2 := (translate_mem hsp.clones).1
    simp at h1 h2
    rw [← List.length_eq_zero_iff]
    omega
  subst hT0 hV
  obtain ⟨c2, g, r2, es, f1, -⟩ := small_step (o := inOrder) (gid := gid) hi (fun l => .refl _) (fun l => .refl _) hps hn (by omega)
    (by simp) (by simp)
  refine ⟨c2, ?_⟩
  have f1' := f1
  simp only [makeOperations, e1, bind, Except.bind] at f1'
  split at f1'
  · cases f1'
  cases f1'
  exact f1

/-- C107.  Values under names that bohe encodes have neither length nor end: two messages that say different things are sent as the same bytes. -/
theorem C107_false (enc : Str → Str → Py Str) (norm : Str → Str) (h : Huffman) (hc : IsCoder1 h) (c0 : Codec) (h0 : Codec.init = .ok c0)
    (host x y z : Str) (hx : x ≠ []) (hb : ∀ a ∈ x ++ y ++ z, a < 256) (hlen : x.length + y.length + z.length ≤ 7998)
    (ex1 : enc b!"accept" x = .ok x) (ex2 : enc b!"accept" (x ++ [0, 2] ++ y) = .ok (x ++ [0, 2] ++ y))
    (hz : z ≠ b!"get") (ez1 : enc b!":method" z = .ok z) (ez2 : enc b!":method" (y ++ [0, 2] ++ z) = .ok (y ++ [0, 2] ++ z)) :
    ∃ c1 c2 b, Delta2Bohe.compress enc norm h ⟨c0, [], 0⟩ ⟨[(b!"accept", x ++ [0, 2] ++ y), (b!":method", z)], host, inOrder⟩ = .ok (c1, b) ∧
      Delta2Bohe.compress enc norm h ⟨c0, [], 0⟩ ⟨[(b!"accept", x), (b!":method", y ++ [0, 2] ++ z)], host, inOrder⟩ = .ok (c2, b) ∧
      (b!"accept", .ok x) ∈ said enc [(b!"accept", x), (b!":method", y ++ [0, 2] ++ z)] ∧
      (b!"accept", .ok x) ∉ said enc [(b!"accept", x ++ [0, 2] ++ y), (b!":method", z)] := by
  obtain ⟨codes, hk, h257⟩ := hc.codes
  have hg : groupOf norm ⟨c0, [], 0⟩ host = .ok (⟨c0, [(norm host, 1)], 1⟩, 1) := by
    simp [groupOf, Dict.get?, getNext, bind, Except.bind, pure, Except.pure, Dict.set]
  have hyz : y ++ [0, 2] ++ z ≠ b!"get" := by
    intro hc
    have : (0 : Nat) ∈ b!"get" := by rw [← hc]; simp
    exact absurd this (by decide)
  obtain ⟨d1, e1⟩ := first107 h0 1 ex2 ez1 (by simp) hz (by simp; omega)
  obtain ⟨d2, e2⟩ := first107 h0 1 ex1 ez2 hx hyz (by simp; omega)
  obtain ⟨b, -, hbs⟩ := wire_total hk h257 (natBits 8 3 ++ natBits 8 1 ++ (natBits 16 9 ++ bitsOf x ++ (natBits 16 2 ++ bitsOf y ++ (natBits 16 2 ++ bitsOf z)))) 1
    (by decide)
  have hW : ∀ v w : Str, payloadW codes (Delta2Bohe.Instrs.groups ⟨[], [(9, v, false), (2, w, false)], []⟩) =
      natBits 8 3 ++ natBits 8 1 ++ (natBits 16 9 ++ bitsOf v ++ (natBits 16 2 ++ bitsOf w)) := by
    intro v w
    have : Delta1.toggleRanges [] = {} := rfl
    simp [Delta2Bohe.Instrs.groups, this, payloadW, blockW, opW, strW]
  have h02 : bitsOf [0, 2] = natBits 16 2 := by decide
  have hok : ∀ v w : Str, (∀ a ∈ v ++ w, a < 256) → InstrsOk ⟨[], [(9, v, false), (2, w, false)], []⟩ := by
    intro v w hvw
    refine ⟨by simp, ?_, by simp⟩
    intro x hx
    simp only [List.mem_cons, List.not_mem_nil, or_false] at hx
    rcases hx with rfl | rfl
    · exact ⟨by simp, fun a ha => hvw a (List.mem_append.2 (.inl ha))⟩
    · exact ⟨by simp, fun a ha => hvw a (List.mem_append.2 (.inr ha))⟩
  have hby : ∀ a, a ∈ x ∨ a ∈ y ∨ a ∈ z ∨ a = 0 ∨ a = 2 → a < 256 := by
    rintro a (ha | ha | ha | rfl | rfl)
    · exact hb a (by simp [ha])
    · exact hb a (by simp [ha])
    · exact hb a (by simp [ha])
    · decide
    · decide
  have b1 := hbs _ (hok (x ++ [0, 2] ++ y) z (fun a ha => hby a (by simp at ha; tauto))) (by
    rw [hW, bitsOf_append, bitsOf_append, h02]
    simp only [List.append_assoc])
  have b2 := hbs _ (hok x (y ++ [0, 2] ++ z) (fun a ha => hby a (by simp at ha; tauto))) (by
    rw [hW, bitsOf_append, bitsOf_append, h02]
    simp only [List.append_assoc])
  refine ⟨⟨d1, [(norm host, 1)], 1⟩, ⟨d2, [(norm host, 1)], 1⟩, b, ?_, ?_, ?_, ?_⟩
  · simp only [Delta2Bohe.compress, hg, e1, b1, bind, Except.bind, pure, Except.pure]
  · simp only [Delta2Bohe.compress, hg, e2, b2, bind, Except.bind, pure, Except.pure]
  · have : DeltaBohe.Spec.parts b!"accept" x = [x] := if_neg (by decide)
    simp [said, this, ex1]
  · have p1 : DeltaBohe.Spec.parts b!"accept" (x ++ [0, 2] ++ y) = [x ++ [0, 2] ++ y] := if_neg (by decide)
    have p2 : DeltaBohe.Spec.parts b!":method" z = [z] := if_neg (by decide)
    intro hm
    simp only [said, List.flatMap_cons, List.flatMap_nil, p1, p2, List.map_cons, List.map_nil, ex2, ez1, List.mem_append, List.mem_cons,
      List.not_mem_nil, or_false, Prod.mk.injEq, Except.ok.injEq, true_and] at hm
    rcases hm with hm | hm
    · have := congrArg List.length hm
      simp at this
    · exact absurd hm.1 (by decide)

/-- The hypotheses of C107_false, for libraries that take these values for what they are. -/
example (epoch : Int) : Delta2Bohe.encode lib80 epoch b!"accept" b!"x" = .ok b!"x" ∧
    Delta2Bohe.encode lib80 epoch b!"accept" (b!"x" ++ [0, 2] ++ b!"y") = .ok (b!"x" ++ [0, 2] ++ b!"y") ∧ b!"z" ≠ b!"get" ∧
    Delta2Bohe.encode lib80 epoch b!":method" b!"z" = .ok b!"z" ∧
    Delta2Bohe.encode lib80 epoch b!":method" (b!"y" ++ [0, 2] ++ b!"z") = .ok (b!"y" ++ [0, 2] ++ b!"z") := by
  refine ⟨rfl, rfl, by decide, rfl, rfl⟩

/-! ### C108: the same message again and again -/

theorem c108 {enc : Str → Str → Py Str} {norm : Str → Str} {h : Huffman} (hc : IsCoder1 h) {k v e x : Str} (hk : k ≠ b!"cookie")
    (henc : enc k v = .ok e) (hx : k.length + e.length ≤ 16) : ∀ (ms : List Delta2Bohe.Message) {t : Nat} {c : Compressor}, After 1 k e t c.codec →
    c.hosts = [(x, 1)] → 0 < t → t ≤ 65536 →
    (∀ m ∈ ms, m.headers = [(k, v)] ∧ norm m.host = x ∧ (∀ l, (m.orders.has l).Perm l) ∧ ∀ l, (m.orders.old l).Perm l) →
    (t + ms.length ≤ 65536 → ∃ c' bs, Delta2Bohe.compressAll enc norm h ms c = .ok (c', bs)) ∧
      (65536 < t + ms.length → Delta2Bohe.compressAll enc norm h ms c = .error .index) := by
  obtain ⟨codes, hk', h257⟩ := hc.codes
  intro ms
  induction ms with
  | nil => intro t c _ _ _ ht _; exact ⟨fun _ => ⟨c, [], rfl⟩, fun hh => by simp at hh; omega⟩
  | cons m ms ih =>
    intro t c ha hh h0 ht hm
    obtain ⟨m1, m2, m3, m4⟩ := hm m (by simp)
    have hg : groupOf norm c m.host = .ok (c, 1) := by simp [groupOf, m2, hh, Dict.get?]
    rcases Nat.lt_or_ge t 65536 with hlt | hge
    · obtain ⟨c1, g, e1, hok, ha1⟩ : ∃ c1 g, makeOperations enc m.orders c.codec [(k, v)] 1 = .ok (c1, g) ∧ InstrsOk g ∧ After 1 k e (t + 1) c1 := by
        by_cases hmod : t % 1024 = 0
        · obtain ⟨c1, e1, ha1⟩ := step_none m3 m4 hk henc hx ha hlt h0 hmod
          refine ⟨c1, _, e1, ⟨?_, by simp, by simp⟩, ha1⟩
          intro i hi
          simp only [List.mem_singleton] at hi
          subst hi
          unfold numberOf
          omega
        · obtain ⟨c1, e1, ha1⟩ := step_some m3 m4 hk henc hx ha hlt hmod
          exact ⟨c1, _, e1, ⟨by simp, by simp, by simp⟩, ha1⟩
      obtain ⟨b, -, hb⟩ := wire_total hk' h257 (payloadW codes g.groups) 1 (by omega)
      have eb := hb g hok rfl
      have := ih (t := t + 1) (c := { c with codec := c1 }) ha1 hh (by omega) (by omega) fun y hy => hm y (by simp [hy])
      rw [List.length_cons]
      constructor
      · intro hl
        obtain ⟨c', bs, e2⟩ := this.1 (by omega)
        exact ⟨c', b :: bs, by simp only [Delta2Bohe.compressAll, Delta2Bohe.compress, hg, m1, e1, eb, e2, bind, Except.bind, pure, Except.pure]⟩
      · intro hl
        have e2 := this.2 (by omega)
        simp only [Delta2Bohe.compressAll, Delta2Bohe.compress, hg, m1, e1, eb, e2, bind, Except.bind, pure, Except.pure]
    · have e1 := step_last (gid := 1) m3 m4 hk henc ha (by omega)
      rw [List.length_cons]
      refine ⟨fun hl => by omega, fun _ => ?_⟩
      simp only [Delta2Bohe.compressAll, Delta2Bohe.compress, hg, m1, e1, bind, Except.bind]

/-- C108.  A message of one header that is at most 16 bytes long and has a name that is not found in the static table, to the same host
again and again: the first 65536 messages are compressed, the next one raises IndexError. -/
theorem C108_repeat (enc : Str → Str → Py Str) (norm : Str → Str) (h : Huffman) (hc : IsCoder1 h) (c0 : Codec) (h0 : Codec.init = .ok c0)
    (k v e x : Str) (hk : k ≠ b!"cookie") (hn : ∀ j, ¬ Newest defaultKvs k j) (henc : enc k v = .ok e) (hx : k.length + e.length ≤ 16)
    (hb : ∀ a ∈ k ++ e, a < 256) (ms : List Delta2Bohe.Message)
    (hm : ∀ m ∈ ms, m.headers = [(k, v)] ∧ norm m.host = x ∧ (∀ l, (m.orders.has l).Perm l) ∧ ∀ l, (m.orders.old l).Perm l) :
    (ms.length ≤ 65536 → ∃ c' bs, Delta2Bohe.compressAll enc norm h ms ⟨c0, [], 0⟩ = .ok (c', bs)) ∧
      (65536 < ms.length → Delta2Bohe.compressAll enc norm h ms ⟨c0, [], 0⟩ = .error .index) := by
  obtain ⟨codes, hk', h257⟩ := hc.codes
  have hc0 : c0 = { static := staticLru, lru := lru0 } := by
    have hi := init_eq
    rw [h0] at hi
    cases hi
    rfl
  cases ms with
  | nil => exact ⟨fun _ => ⟨_, [], rfl⟩, fun hh => by simp at hh⟩
  | cons m ms =>
    obtain ⟨m1, m2, m3, m4⟩ := hm m (by simp)
    have hg : groupOf norm ⟨c0, [], 0⟩ m.host = .ok (⟨c0, [(x, 1)], 1⟩, 1) := by
      simp [groupOf, m2, Dict.get?, getNext, bind, Except.bind, pure, Except.pure, Dict.set]
    obtain ⟨c1, e1, ha⟩ := step_first (gid := 1) m3 m4 hk henc hx hn
    rw [← hc0] at e1
    obtain ⟨b, -, hw⟩ := wire_total hk' h257 (payloadW codes (Delta2Bohe.Instrs.groups { kvsto := [(k, e, decide (k ∉ Bohe.encoderNames))] })) 1 (by omega)
    have eb := hw _ ⟨by simp, by simp, by
      intro y hy
      simp only [List.mem_singleton] at hy
      subst hy
      exact ⟨fun a ha => hb a (by simp [ha]), fun a ha => hb a (by simp [ha])⟩⟩ rfl
    have := c108 (norm := norm) hc hk henc hx ms (t := 1) (c := ⟨c1, [(x, 1)], 1⟩) ha rfl (by omega) (by omega) fun y hy => hm y (by simp [hy])
    rw [List.length_cons]
    constructor
    · intro hl
      obtain ⟨c', bs, e2⟩ := this.1 (by omega)
      exact ⟨c', b :: bs, by simp only [Delta2Bohe.compressAll, Delta2Bohe.compress, hg, m1, e1, eb, e2, bind, Except.bind, pure, Except.pure]⟩
    · intro hl
      have e2 := this.2 (by omega)
      simp only [Delta2Bohe.compressAll, Delta2Bohe.compress, hg, m1, e1, eb, e2, bind, Except.bind, pure, Except.pure]

/-- The hypotheses of C108. -/
example : b!"x-a" ≠ b!"cookie" ∧ (∀ j, ¬ Newest defaultKvs b!"x-a" j) ∧ plain b!"x-a" b!"1" = .ok b!"1" ∧ (b!"x-a").length + (b!"1").length ≤ 16 := by
  refine ⟨by decide, ?_, rfl, by decide⟩
  rintro j ⟨-, ⟨v, hv⟩, -⟩
  have hm := List.mem_of_getElem? hv
  have : ∀ y ∈ defaultKvs, y.1 ≠ b!"x-a" := by decide +kernel
  exact this _ hm rfl

/-! ### C109: the hosts -/

theorem storeBits8_lt {b b' : BitBucket} {v : Nat} (h : storeBits8 b v = .ok b') : v < 256 := by
  simp only [storeBits8, bind, Except.bind] at h
  by_contra hc
  have : packB v = .error .struct := by
    unfold packB
    rw [if_neg (by omega)]
  rw [this] at h
  cases h

theorem opsToRealOps_lt {h : Huffman} {g : Delta2Bohe.Instrs} {gid : Nat} {b : Str} (e : Delta2Bohe.opsToRealOps h g gid = .ok b) : gid < 256 := by
  simp only [Delta2Bohe.opsToRealOps, Delta2Bohe.serialize, Delta1.boilerplate, bind, Except.bind] at e
  split at e
  · cases e
  rename_i he
  split at he
  · cases he
  split at he
  · cases he
  rename_i hb
  split at hb
  · cases hb
  split at hb
  · cases hb
  split at hb
  · cases hb
  split at hb
  · cases hb
  split at hb
  · cases hb
  exact storeBits8_lt hb

/-- The hosts that have been seen have different ids, from 1 to their number. -/
structure Known (seen : List Str) (c : Compressor) : Prop where
  wf : c.hosts.WF
  keys : ∀ k, k ∈ c.hosts.keys ↔ k ∈ seen
  count : c.hosts.keys.length = c.nextIdx
  le : c.nextIdx ≤ 255
  ids : ∀ k i, c.hosts.get? k = some i → i ≤ c.nextIdx
  inj : ∀ k k' i, c.hosts.get? k = some i → c.hosts.get? k' = some i → k = k'

theorem groupOf_ids {seen : List Str} {c c' : Compressor} {norm : Str → Str} {host : Str} {gid : Nat} (h : Known seen c)
    (e : groupOf norm c host = .ok (c', gid)) : c'.hosts.WF ∧ (∀ k, k ∈ c'.hosts.keys ↔ k ∈ seen ++ [norm host]) ∧
      c'.hosts.keys.length = c'.nextIdx ∧ (gid ≤ 255 → c'.nextIdx ≤ 255) ∧ (∀ k i, c'.hosts.get? k = some i → i ≤ c'.nextIdx) ∧
      (∀ k k' i, c'.hosts.get? k = some i → c'.hosts.get? k' = some i → k = k') ∧ c'.hosts.get? (norm host) = some gid ∧ c'.codec = c.codec := by
  unfold groupOf at e
  cases hg : c.hosts.get? (norm host) with
  | some i =>
    rw [hg] at e
    cases e
    refine ⟨h.wf, fun k => ?_, h.count, fun _ => h.le, h.ids, h.inj, hg, rfl⟩
    rw [h.keys, List.mem_append, List.mem_singleton]
    constructor
    · exact .inl
    · rintro (hk | rfl)
      · exact hk
      · rw [← h.keys]
        by_contra hno
        rw [Dict.get?_none.2 hno] at hg
        cases hg
  | none =>
    rw [hg] at e
    have hno : norm host ∉ c.hosts.keys := by rw [← Dict.get?_none]; exact hg
    simp only [getNext, bind, Except.bind] at e
    split at e
    · cases e
    rename_i n hn
    split at hn
    · cases hn
    cases hn
    cases e
    have hkeys : (c.hosts.set (norm host) (c.nextIdx + 1)).keys = c.hosts.keys ++ [norm host] := by
      rw [Dict.set_new hno]
      simp [Dict.keys]
    refine ⟨h.wf.set _ _, ?_, ?_, fun hle => hle, ?_, ?_, ?_, rfl⟩
    · intro k
      simp only [hkeys, List.mem_append, h.keys]
    · simp only [hkeys, List.length_append, h.count, List.length_singleton]
    · intro k i hi
      simp only [Dict.get?_set] at hi
      split at hi
      · cases hi; exact le_rfl
      · have := h.ids k i hi
        simp only
        omega
    · intro k k' i hi hi'
      simp only [Dict.get?_set] at hi hi'
      split at hi <;> split at hi'
      · rename_i h1 h2; exact h1.symm.trans h2
      · cases hi; have := h.ids _ _ hi'; omega
      · cases hi'; have := h.ids _ _ hi; omega
      · exact h.inj k k' i hi hi'
    · simp only [Dict.get?_set, if_true]

theorem known_session {enc : Str → Str → Py Str} {norm : Str → Str} {h : Huffman} : ∀ (ms : List Delta2Bohe.Message) {seen : List Str} {c c' : Compressor}
    {bs : List Str}, Known seen c → Delta2Bohe.compressAll enc norm h ms c = .ok (c', bs) → Known (seen ++ ms.map fun m => norm m.host) c' := by
  intro ms
  induction ms with
  | nil => intro seen c c' bs hk e; cases e; simpa using hk
  | cons m ms ih =>
    intro seen c c' bs hk e
    simp only [Delta2Bohe.compressAll, Delta2Bohe.compress, bind, Except.bind] at e
    split at e
    · cases e
    rename_i r hr
    split at e
    · cases e
    rename_i r2 hr2
    cases e
    split at hr
    · cases hr
    rename_i r3 hr3
    split at hr
    · cases hr
    rename_i r4 hr4
    split at hr
    · cases hr
    rename_i b hb
    cases hr
    obtain ⟨a1, a2, a3, a4, a5, a6, -, -⟩ := groupOf_ids hk hr3
    have := ih (seen := seen ++ [norm m.host]) (c := ⟨r4.1, r3.1.hosts, r3.1.nextIdx⟩) (c' := r2.1) (bs := r2.2) ⟨a1, a2, a3, a4 (by have := opsToRealOps_lt hb; omega), a5, a6⟩ hr2
    simpa using this

theorem known0 (c0 : Codec) : Known [] ⟨c0, [], 0⟩ :=
  ⟨by simp [Dict.WF, Dict.keys], by simp [Dict.keys], rfl, by simp, by simp [Dict.get?], by simp [Dict.get?]⟩

/-- C109.  In a session that is compressed without error there are at most 255 different hosts. -/
theorem C109_hosts (enc : Str → Str → Py Str) (norm : Str → Str) (h : Huffman) (c0 : Codec) (ms : List Delta2Bohe.Message)
    (c : Compressor) (bs : List Str) (e : Delta2Bohe.compressAll enc norm h ms ⟨c0, [], 0⟩ = .ok (c, bs)) (D : List Str) (hn : D.Nodup)
    (hD : ∀ x ∈ D, ∃ m ∈ ms, norm m.host = x) : D.length ≤ 255 := by
  have hk := known_session ms (known0 c0) e
  have := (List.subperm_of_subset (l₂ := c.hosts.keys) hn (by
    intro x hx
    obtain ⟨m, hm, rfl⟩ := hD x hx
    rw [hk.keys]
    exact List.mem_append.2 (.inr (List.mem_map.2 ⟨m, hm, rfl⟩)))).length_le
  rw [hk.count] at this
  exact this.trans hk.le

/-- C109.  At any time of a session two messages are put into the same header group exactly if their hosts are the same but for what the
regular expression takes away. -/
theorem C109_groups (enc : Str → Str → Py Str) (norm : Str → Str) (h : Huffman) (c0 : Codec) (ms : List Delta2Bohe.Message)
    (c : Compressor) (bs : List Str) (e : Delta2Bohe.compressAll enc norm h ms ⟨c0, [], 0⟩ = .ok (c, bs)) (a b : Str) (c1 c2 : Compressor)
    (i j : Nat) (e1 : groupOf norm c a = .ok (c1, i)) (hi : i < 256) (e2 : groupOf norm c1 b = .ok (c2, j)) : i = j ↔ norm a = norm b := by
  have hk := known_session ms (known0 c0) e
  obtain ⟨a1, a2, a3, a4, a5, a6, a7, -⟩ := groupOf_ids hk e1
  have hk1 : Known _ c1 := ⟨a1, a2, a3, a4 (by omega), a5, a6⟩
  obtain ⟨b1, b2, b3, b4, b5, b6, b7, -⟩ := groupOf_ids hk1 e2
  have hsame : c2.hosts.get? (norm a) = some i := by
    unfold groupOf at e2
    cases hg : c1.hosts.get? (norm b) with
    | some x => rw [hg] at e2; cases e2; exact a7
    | none =>
      rw [hg] at e2
      simp only [getNext, bind, Except.bind] at e2
      split at e2
      · cases e2
      cases e2
      simp only [Dict.get?_set]
      rw [if_neg (fun hc => by rw [hc, a7] at hg; cases hg)]
      exact a7
  constructor
  · rintro rfl
    exact b6 _ _ _ hsame b7
  · intro hab
    rw [hab, b7] at hsame
    cases hsame
    rfl

/-- A session that C109 is about. -/
example (h : Huffman) (hc : IsCoder1 h) (c0 : Codec) (h0 : Codec.init = .ok c0) : ∃ c bs c1 c2 i j,
    Delta2Bohe.compressAll plain (fun s => s.takeWhile (· ≠ 58)) h (List.replicate 3 ⟨[(b!"x-a", b!"1")], b!"a.com:80", inOrder⟩) ⟨c0, [], 0⟩ = .ok (c, bs) ∧
    groupOf (fun s => s.takeWhile (· ≠ 58)) c b!"a.com" = .ok (c1, i) ∧ i < 256 ∧
    groupOf (fun s => s.takeWhile (· ≠ 58)) c1 b!"b.com" = .ok (c2, j) := by
  obtain ⟨c, bs, e⟩ := (C108_repeat plain (fun s => s.takeWhile (· ≠ 58)) h hc c0 h0 b!"x-a" b!"1" b!"1" b!"a.com" (by decide) (by
    rintro j ⟨-, ⟨v, hv⟩, -⟩
    have : ∀ y ∈ defaultKvs, y.1 ≠ b!"x-a" := by decide +kernel
    exact this _ (List.mem_of_getElem? hv) rfl) rfl (by decide) (by decide)
    (List.replicate 3 ⟨[(b!"x-a", b!"1")], b!"a.com:80", inOrder⟩) (by
      intro m hm
      rw [List.eq_of_mem_replicate hm]
      exact ⟨rfl, rfl, fun l => .refl _, fun l => .refl _⟩)).1 (by decide)
  have hk := known_session _ (known0 c0) e
  obtain ⟨i, hi⟩ : ∃ i, c.hosts.get? b!"a.com" = some i := by
    cases hg : c.hosts.get? b!"a.com" with
    | some i => exact ⟨i, rfl⟩
    | none => exact absurd ((hk.keys _).2 (by decide)) (Dict.get?_none.1 hg)
  have e1 : groupOf (fun s => s.takeWhile (· ≠ 58)) c b!"a.com" = .ok (c, i) := by
    have : (b!"a.com").takeWhile (fun x => decide (x ≠ 58)) = b!"a.com" := by decide
    simp only [groupOf, this, hi]
  have e2 : ∃ c2 j, groupOf (fun s => s.takeWhile (· ≠ 58)) c b!"b.com" = .ok (c2, j) := by
    unfold groupOf
    split
    · exact ⟨_, _, rfl⟩
    · have := hk.le
      simp only [getNext, if_neg (show ¬ c.nextIdx + 1 ≥ 2 ^ 31 by omega), bind, Except.bind, pure, Except.pure]
      exact ⟨_, _, rfl⟩
  obtain ⟨c2, j, e2⟩ := e2
  have := hk.ids _ _ hi
  have := hk.le
  exact ⟨c, bs, c, c2, i, j, e, e1, by omega, e2⟩

end Verif.Props
