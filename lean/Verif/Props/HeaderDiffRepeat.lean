import Verif.HeaderDiff.Repeat
import Verif.Props.HeaderDiff
/-
What headerdiff writes for headers it has sent before (C138).
-/
namespace Verif.Props
open Verif Verif.HeaderDiff

/-- The place of each header in the receiver's table; name and value joined are what counts. -/
def KnownAt (table : List Hdr) (m : List Hdr) (places : List Nat) : Prop :=
  List.Forall₂ (fun h i => ∃ x, table[i]? = some x ∧ x.1 ++ x.2 = h.1 ++ h.2) m places

/-- A reference to a place of the table: one byte for the first 64, two bytes for the others. -/
def placeBytes (i : Nat) : List Nat := if i < 64 then [128 + i] else [192 + (i - 64) / 256, (i - 64) % 256]

theorem sync_rows {cfg : Cfg} {st st' : Enc} {d : Dec} (h : Sync cfg st d) (hr : rows st'.table = rows st.table)
    (hz : st'.size = st.size) (hn : st'.names = st.names) : Sync cfg st' d := by
  refine ⟨?_, ?_⟩
  · rw [hr, hz]; exact h.table
  · rw [hn]; exact h.names

theorem known_placed {cfg : Cfg} {st : Enc} {d : Dec} (hs : Sync cfg st d) {m : List Hdr} {is : List Nat}
    (h : KnownAt d.headers m is) : Placed st.table m is := by
  refine List.Forall₂.imp (fun a i ⟨x, hx, hj⟩ => ?_) h
  obtain ⟨k, x', hm⟩ := hs.table.surj i (List.getElem?_eq_some_iff.1 hx).1
  have := hs.table.at_ _ _ _ hm
  rw [hx] at this
  cases this
  have hk := hs.table.full _ _ _ hm
  exact ⟨x, by rw [← hj, ← hk]; exact (Dict.mem_iff_get? hs.table.wf).1 hm⟩

theorem known_bound {table m : List Hdr} {is : List Nat} (h : KnownAt table m is) (hl : table.length ≤ 16447) : ∀ i ∈ is, i < 16447 := by
  induction h with
  | nil => simp
  | cons h1 _ ih =>
    obtain ⟨x, hx, _⟩ := h1
    have := (List.getElem?_eq_some_iff.1 hx).1
    intro i hi
    rcases List.mem_cons.1 hi with rfl | hi
    · omega
    · exact ih i hi

/-- C138, the cost of known headers.  After every session, a message of at most 255 headers, all of them in the receiver's
table at places below 16447, is sent as the head of the frame, its number of headers and a reference for each header; this
changes neither table, and what arrives are the headers at these places. -/
theorem C138_known (cfg : Cfg) (hmax : 0 ≤ cfg.maxSize) (hco : Coded cfg) (order : Order) (ho : ∀ n t, (order n t).Perm t)
    (ms : List (List Hdr)) (hb : ByteSession ms) (st : Enc) (fs : List (List Nat))
    (he : encodeAll order cfg (Enc.init cfg) ms = (st, .ok fs)) (d : Dec) (outs : List (List Hdr))
    (hd : decodeAll cfg (Dec.init cfg) fs = .ok (d, outs)) (m : List Hdr) (places : List Nat) (hm : m.length ≤ 255)
    (hk : KnownAt d.headers m places) (hp : ∀ i ∈ places, i < 16447) :
    ∃ st' out refs, refs = places.flatMap placeBytes ∧
      encodeHeaders order cfg st m =
        (st', .ok ([(refs.length + 1) / 256, (refs.length + 1) % 256, 0, 0, 0, 0, 0, 0, m.length] ++ refs)) ∧ InStep st' d ∧
      decodeHeaders cfg d ([(refs.length + 1) / 256, (refs.length + 1) % 256, 0, 0, 0, 0, 0, 0, m.length] ++ refs) = .ok (d, out) ∧
      List.Forall₂ (fun i x => d.headers[i]? = some x) places out := by
  obtain ⟨d', outs', h1, h2, _⟩ := session_like hmax hco ho hb he
  rw [hd] at h2
  cases h2
  have hpl := known_placed h1 hk
  obtain ⟨st', e1, r1, z1, n1⟩ := encodeHeaders_known order cfg hpl hp hm
  obtain ⟨out, e2, f2⟩ := decodeHeaders_known h1 hpl hp
  have hl : m.length = places.length := hk.length_eq
  refine ⟨st', out, _, rfl, ?_, inStep (sync_rows h1 r1 z1 n1), ?_, f2⟩
  · rw [e1, hl]; rfl
  · rw [hl]; exact e2

/-- `C138_known` holds of a table with two headers: the second is sent as one byte, and so is another header that joins to the
same text. -/
example : KnownAt [(b!"cookie", b!"abc1"), (b!"cookie", b!"abc2")] [(b!"cookie", b!"abc2"), (b!"cooki", b!"eabc2")] [1, 1] :=
  .cons ⟨_, rfl, rfl⟩ (.cons ⟨_, rfl, rfl⟩ .nil)

theorem repeats_known {cfg : Cfg} (order : Order) {d : Dec} (hl : d.headers.length ≤ 16447) (ms : List (List Hdr)) :
    ∀ {st : Enc}, Sync cfg st d → (∀ m ∈ ms, m.length ≤ 255 ∧ ∀ h ∈ m, ∃ x ∈ d.headers, x.1 ++ x.2 = h.1 ++ h.2) →
    ∃ st' fs outs, encodeAll order cfg st ms = (st', .ok fs) ∧ Sync cfg st' d ∧ decodeAll cfg d fs = .ok (d, outs) ∧
      List.Forall₂ (fun (m : List Hdr) (f : List Nat) => f.length ≤ 9 + 2 * m.length) ms fs := by
  induction ms with
  | nil => intro st h _; exact ⟨st, [], [], rfl, h, rfl, .nil⟩
  | cons m ms ih =>
    intro st hs hm
    obtain ⟨m1, m2⟩ := hm m (by simp)
    have hk : ∃ is, KnownAt d.headers m is := by
      clear hm ih m1
      induction m with
      | nil => exact ⟨[], .nil⟩
      | cons h m ih =>
        obtain ⟨is, his⟩ := ih (fun g hg => m2 g (by simp [hg]))
        obtain ⟨x, hx, hj⟩ := m2 h (by simp)
        obtain ⟨i, hi⟩ := List.getElem?_of_mem hx
        exact ⟨i :: is, .cons ⟨x, hi, hj⟩ his⟩
    obtain ⟨is, hk⟩ := hk
    have hb := known_bound hk hl
    have hpl := known_placed hs hk
    obtain ⟨st1, e1, r1, z1, n1⟩ := encodeHeaders_known order cfg hpl hb m1
    obtain ⟨out, e2, _⟩ := decodeHeaders_known hs hpl hb
    obtain ⟨st2, fs, outs, e3, s3, e4, f4⟩ := ih (sync_rows hs r1 z1 n1) (fun g hg => hm g (by simp [hg]))
    refine ⟨st2, refFrame is :: fs, out :: outs, ?_, s3, ?_, .cons ?_ f4⟩
    · simp only [encodeAll, e1, e3]
    · simp only [decodeAll, e2, e4, bind, Except.bind]
    · have := refs_length is
      have hlen : m.length = is.length := hk.length_eq
      simp only [refFrame, List.length_append, List.length_cons, List.length_nil]
      omega

/-- C138, repetitions are cheap.  Let a message be sent after some session, with a codec that is not the codec of requests
with a buffer below 10000 (or that uses no deltas, and the message has no `:path`), and with room for the values of the
message in the buffer.  Then all its headers are in the receiver's table, which still has at most 16447 headers, say; every
number of further messages made of headers of this one, in any order and with any repetitions, cost at most 9 bytes and two
for each header, and do not change the receiver's table. -/
theorem C138_repeat (cfg : Cfg) (hmax : 0 ≤ cfg.maxSize) (hco : Coded cfg) (order : Order) (ho : ∀ n t, (order n t).Perm t)
    (ms : List (List Hdr)) (m : List Hdr) (hb : ByteSession (ms ++ [m])) (st0 st : Enc) (fs : List (List Nat)) (f : List Nat)
    (he0 : encodeAll order cfg (Enc.init cfg) ms = (st0, .ok fs)) (he : encodeHeaders order cfg st0 m = (st, .ok f))
    (hdelta : cfg.deltaUsage = true → cfg.isRequest = true → 10000 ≤ cfg.maxSize)
    (hpath : cfg.deltaUsage = false → ∀ h ∈ m, h.1 ≠ b!":path")
    (hroom : st0.size + ((m.map fun h => h.2.length).sum : Nat) < cfg.maxSize) :
    ∃ d0 outs d out, decodeAll cfg (Dec.init cfg) fs = .ok (d0, outs) ∧ decodeHeaders cfg d0 f = .ok (d, out) ∧
      d0.headers <+: d.headers ∧ (∀ h ∈ m, ∃ x ∈ d.headers, x.1 ++ x.2 = h.1 ++ h.2) ∧
      (d.headers.length ≤ 16447 → ∀ again : List (List Hdr),
        (∀ a ∈ again, a.length ≤ 255 ∧ ∀ h ∈ a, ∃ h' ∈ m, h.1 ++ h.2 = h'.1 ++ h'.2) →
        ∃ st' gs outs', encodeAll order cfg st again = (st', .ok gs) ∧ decodeAll cfg d gs = .ok (d, outs') ∧
          List.Forall₂ (fun (a : List Hdr) (g : List Nat) => g.length ≤ 9 + 2 * a.length) again gs) := by
  obtain ⟨d0, outs, h1, h2, _⟩ := session_like hmax hco ho (fun x hx => hb x (by simp [hx])) he0
  obtain ⟨d, out, s1, _, e1, _⟩ := encodeHeaders_spec (coded_ok hco) ho (fun _ => True) m h1 (fun _ _ => trivial)
    (fun h hh => ⟨hb m (by simp) h hh, trivial⟩) he
  have hst : ∀ h ∈ m, Stores cfg h := fun h hh => ⟨fun hd ⟨hr, hlt⟩ => by have := hdelta hd hr; omega, fun hd => hpath hd h hh⟩
  obtain ⟨k1, k2⟩ := encodeHeaders_stores order hst hroom he
  have hin : ∀ h ∈ m, ∃ x ∈ d.headers, x.1 ++ x.2 = h.1 ++ h.2 := by
    intro h hh
    obtain ⟨⟨x, i⟩, hx⟩ := Option.ne_none_iff_exists'.1 (k1 h hh)
    have hmem := (Dict.mem_iff_get? s1.table.wf).2 hx
    exact ⟨x, List.mem_of_getElem? (s1.table.at_ _ _ _ hmem), (s1.table.full _ _ _ hmem).symm⟩
  refine ⟨d0, outs, d, out, h2, e1, ?_, hin, fun hl again hag => ?_⟩
  · rw [List.prefix_iff_getElem?]
    intro i hi
    obtain ⟨k, x, hx⟩ := h1.table.surj i hi
    have hx' := (Dict.mem_iff_get? s1.table.wf).2 (k2 _ _ ((Dict.mem_iff_get? h1.table.wf).1 hx))
    rw [s1.table.at_ _ _ _ hx']
    have := h1.table.at_ _ _ _ hx
    rw [List.getElem?_eq_getElem hi] at this
    exact this.symm
  · obtain ⟨st', gs, outs', e2, _, e3, f3⟩ := repeats_known order hl again s1 (fun a ha => ⟨(hag a ha).1, fun h hh => by
      obtain ⟨h', hh', hj⟩ := (hag a ha).2 h hh
      obtain ⟨x, hx, hxj⟩ := hin h' hh'
      exact ⟨x, hx, hxj.trans hj.symm⟩⟩)
    exact ⟨st', gs, outs', e2, e3, f3⟩

/-- The codec of requests with a small buffer. -/
def smallRequests : Cfg := { maxSize := 4096, deltaUsage := true, deltaType := .full, huffman := none, isRequest := true }

/-- Two headers with the same name whose values begin alike. -/
def twoCookies : List Hdr := [(b!"cookie", b!"abc1"), (b!"cookie", b!"abc2")]

theorem small_order {order : Order} (ho : ∀ n t, (order n t).Perm t) (cfg : Cfg) (st : Enc) (h : Hdr) (hl : st.table.length ≤ 1) :
    encodeHeader order cfg st h = encodeHeader (fun _ t => t) cfg st h := by
  have : ∀ n, order n st.table = st.table := by
    intro n
    match ht : st.table, hl with
    | [], _ => exact List.perm_nil.1 (ho n [])
    | [x], _ => exact List.perm_singleton.1 (ho n [x])
  unfold encodeHeader determine chooseNew
  simp only [this]

/-- The encoder when only the second of the two headers is in its table. -/
def onlySecond (ticks : Nat) : Enc :=
  { table := [(b!"cookieabc2", { name := b!"cookie", value := b!"abc2", index := 0 })], size := 4,
    names := (Enc.init smallRequests).names, ticks := ticks }

/-- The encoder when only the first of the two headers is in its table. -/
def onlyFirst (ticks : Nat) : Enc :=
  { table := [(b!"cookieabc1", { name := b!"cookie", value := b!"abc1", index := 0 })], size := 4,
    names := (Enc.init smallRequests).names, ticks := ticks }

theorem never_step {order : Order} (ho : ∀ n t, (order n t).Perm t) (k : Nat) :
    encodeHeaders order smallRequests (onlySecond k) twoCookies =
      (onlySecond (k + 2), .ok [0, 9, 0, 0, 0, 0, 0, 0, 2, 112, 3, 1, 49, 112, 3, 1, 50]) := by
  have e1 : encodeHeader order smallRequests (grow (onlySecond k)) (b!"cookie", b!"abc1") = (onlyFirst (k + 1), .ok [112, 3, 1, 49]) := by
    rw [small_order ho _ _ _ (by simp [grow, onlySecond])]
    with_unfolding_all rfl
  have e2 : encodeHeader order smallRequests (onlyFirst (k + 1)) (b!"cookie", b!"abc2") = (onlySecond (k + 2), .ok [112, 3, 1, 50]) := by
    rw [small_order ho _ _ _ (by simp [onlyFirst])]
    with_unfolding_all rfl
  simp only [encodeHeaders, twoCookies, encodeLoop, e1, e2]
  rfl

theorem never_first {order : Order} (ho : ∀ n t, (order n t).Perm t) :
    encodeHeaders order smallRequests (Enc.init smallRequests) twoCookies =
      (onlySecond 2, .ok [0, 11, 0, 0, 0, 0, 0, 0, 2, 37, 4, 97, 98, 99, 49, 112, 3, 1, 50]) := by
  have e1 : encodeHeader order smallRequests (grow (Enc.init smallRequests)) (b!"cookie", b!"abc1") =
      (onlyFirst 1, .ok [37, 4, 97, 98, 99, 49]) := by
    rw [small_order ho _ _ _ (by simp [grow, Enc.init])]
    rfl
  have e2 : encodeHeader order smallRequests (onlyFirst 1) (b!"cookie", b!"abc2") = (onlySecond 2, .ok [112, 3, 1, 50]) := by
    rw [small_order ho _ _ _ (by simp [onlyFirst])]
    rfl
  simp only [encodeHeaders, twoCookies, encodeLoop, e1, e2]
  rfl

/-- C138, what does not settle.  With the codec of requests and a buffer below 10000, of which 4 bytes are in use, a message of
two headers whose values begin alike is sent with two deltas every time, never with two references: each header takes the
other's place in the table. -/
theorem C138_never (order : Order) (ho : ∀ n t, (order n t).Perm t) (n : Nat) :
    ∃ st, encodeAll order smallRequests (Enc.init smallRequests) (List.replicate (n + 1) twoCookies) =
      (st, .ok ([0, 11, 0, 0, 0, 0, 0, 0, 2, 37, 4, 97, 98, 99, 49, 112, 3, 1, 50] ::
        List.replicate n [0, 9, 0, 0, 0, 0, 0, 0, 2, 112, 3, 1, 49, 112, 3, 1, 50])) ∧ st.size = 4 ∧ st.table.length = 1 := by
  have key : ∀ n k, encodeAll order smallRequests (onlySecond k) (List.replicate n twoCookies) =
      (onlySecond (k + 2 * n), .ok (List.replicate n [0, 9, 0, 0, 0, 0, 0, 0, 2, 112, 3, 1, 49, 112, 3, 1, 50])) := by
    intro n
    induction n with
    | zero => intro k; rfl
    | succ n ih =>
      intro k
      rw [List.replicate_succ, List.replicate_succ]
      simp only [encodeAll, never_step ho, ih]
      rw [show k + 2 + 2 * n = k + 2 * (n + 1) by omega]
  refine ⟨onlySecond (2 + 2 * n), ?_, rfl, rfl⟩
  rw [List.replicate_succ]
  simp only [encodeAll, never_first ho, key]

/-- The same message with a buffer of 10000: the second time two references are sent. -/
example : (encodeAll (fun _ t => t) { smallRequests with maxSize := 10000 } (Enc.init smallRequests) [twoCookies, twoCookies]).2 =
    .ok [[0, 11, 0, 0, 0, 0, 0, 0, 2, 37, 4, 97, 98, 99, 49, 96, 3, 1, 50], [0, 3, 0, 0, 0, 0, 0, 0, 2, 128, 129]] := by rfl

/-- `C138_repeat` holds of this: after the first message both headers are known, whatever is sent then. -/
example (again : List (List Hdr)) (h : ∀ a ∈ again, a.length ≤ 255 ∧ ∀ h ∈ a, h ∈ twoCookies) :
    ∃ st st' f gs, encodeHeaders (fun _ t => t) { smallRequests with maxSize := 10000 } (Enc.init smallRequests) twoCookies = (st, .ok f) ∧
      encodeAll (fun _ t => t) { smallRequests with maxSize := 10000 } st again = (st', .ok gs) ∧
      List.Forall₂ (fun (a : List Hdr) (g : List Nat) => g.length ≤ 9 + 2 * a.length) again gs := by
  have hx : ∃ st, encodeHeaders (fun _ t => t) { smallRequests with maxSize := 10000 } (Enc.init smallRequests) twoCookies =
    (st, .ok [0, 11, 0, 0, 0, 0, 0, 0, 2, 37, 4, 97, 98, 99, 49, 96, 3, 1, 50]) := ⟨_, rfl⟩
  obtain ⟨st, hst⟩ := hx
  obtain ⟨d0, outs, d, out, h1, h2, _, _, h3⟩ := C138_repeat { smallRequests with maxSize := 10000 } (by decide) (Or.inl rfl) (fun _ t => t)
    (fun _ _ => List.Perm.refl _) [] twoCookies (by unfold ByteSession; decide) _ st [] _ rfl hst (by decide) (by decide) (by decide)
  cases h1
  have hd : (decodeHeaders { smallRequests with maxSize := 10000 } (Dec.init { smallRequests with maxSize := 10000 })
    [0, 11, 0, 0, 0, 0, 0, 0, 2, 37, 4, 97, 98, 99, 49, 96, 3, 1, 50]).map (fun r => r.1.headers) = .ok twoCookies := by rfl
  rw [h2] at hd
  have hd' : d.headers = twoCookies := by simpa [Except.map] using hd
  obtain ⟨st', gs, _, h4, _, h5⟩ := h3 (by rw [hd']; decide) again (fun a ha => ⟨(h a ha).1, fun x hx => ⟨x, (h a ha).2 x hx, rfl⟩⟩)
  exact ⟨st, st', _, gs, hst, h4, h5⟩

end Verif.Props
