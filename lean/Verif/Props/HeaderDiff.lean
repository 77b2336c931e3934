import Verif.HeaderDiff.Total
import Verif.Props.Lib
import Verif.Bits.Use
import Mathlib.Data.List.Nodup
import Mathlib.Data.List.Perm.Subperm
/-
Property theorems for headerdiff (C33-C40, C60, C61).
-/
namespace Verif.Props
open Verif Verif.HeaderDiff Verif.Lib Verif.Lib.Spec

/-- The coder of a codec: none, or one made from some table of two symbols or more, whatever the order of its dictionary. -/
def Coded (cfg : Cfg) : Prop :=
  cfg.huffman = none ∨ ∃ (order : List (Nat × Nat) → List (Nat × Nat)) (stats : List (Nat × Nat)) (h : HCodec),
    (∀ l, (order l).Perm l) ∧ (stats.map (·.1)).Nodup ∧ 2 ≤ stats.length ∧ HCodec.make order stats = .ok h ∧
    cfg.huffman = some h

theorem coded_ok {cfg : Cfg} (h : Coded cfg) : CoderOk cfg := by
  intro c hc
  rcases h with h | ⟨order, stats, h, ho, hnd, hlen, hm, hs⟩
  · rw [h] at hc; cases hc
  · obtain ⟨h', hm', hcodes⟩ := make_spec order stats (ho _) hnd hlen
    rw [hm] at hm'
    cases hm'
    rw [hs] at hc
    cases hc
    exact ⟨_, hcodes⟩

/-- All headers of a session are made of bytes. -/
def ByteSession (ms : List (List Hdr)) : Prop := ∀ m ∈ ms, ∀ h ∈ m, (∀ c ∈ h.1, c < 256) ∧ ∀ c ∈ h.2, c < 256

/-- No two different headers of a session become the same when name and value are joined. -/
def NoCollision (ms : List (List Hdr)) : Prop :=
  ∀ m ∈ ms, ∀ h ∈ m, ∀ m' ∈ ms, ∀ h' ∈ m', h.1 ++ h.2 = h'.1 ++ h'.2 → h = h'

/-- The headers of a session. -/
def Sent (ms : List (List Hdr)) (h : Hdr) : Prop := ∃ m ∈ ms, h ∈ m

theorem session_like {cfg : Cfg} (hmax : 0 ≤ cfg.maxSize) (hco : Coded cfg) {order : Order} (ho : ∀ n t, (order n t).Perm t)
    {ms : List (List Hdr)} (hb : ByteSession ms) {st : Enc} {fs : List (List Nat)}
    (he : encodeAll order cfg (Enc.init cfg) ms = (st, .ok fs)) :
    ∃ d outs, Sync cfg st d ∧ decodeAll cfg (Dec.init cfg) fs = .ok (d, outs) ∧
      List.Forall₂ (List.Forall₂ (Like (Sent ms))) ms outs := by
  obtain ⟨d, outs, h1, _, h2, h3⟩ := encodeAll_spec (coded_ok hco) ho (Sent ms) ms (init_sync cfg hmax) (init_from _ _)
    (fun m hm h hh => ⟨hb m hm h hh, m, hm, hh⟩) he
  exact ⟨d, outs, h1, h2, h3⟩

theorem forall₂_eq {α : Type} {R : α → α → Prop} {a b : List α} (h : List.Forall₂ R a b) (hr : ∀ x ∈ a, ∀ y, R x y → y = x) :
    b = a := by
  induction h with
  | nil => rfl
  | cons hx _ ih =>
    rw [hr _ (by simp) _ hx, ih fun x hm => hr x (by simp [hm])]

/-- C33.  For every buffer, every mode of delta coding, with or without Huffman codes, every session of messages made
of bytes in which no two different headers collide, every order of the dictionaries: if all messages are encoded, then
the decoder returns exactly the lists of headers that were sent. -/
theorem C33_session (cfg : Cfg) (hmax : 0 ≤ cfg.maxSize) (hco : Coded cfg) (order : Order) (ho : ∀ n t, (order n t).Perm t)
    (ms : List (List Hdr)) (hb : ByteSession ms) (hnc : NoCollision ms) (st : Enc) (fs : List (List Nat))
    (he : encodeAll order cfg (Enc.init cfg) ms = (st, .ok fs)) :
    ∃ d, decodeAll cfg (Dec.init cfg) fs = .ok (d, ms) := by
  obtain ⟨d, outs, _, h1, h2⟩ := session_like hmax hco ho hb he
  have : outs = ms := forall₂_eq h2 fun m hm y hy => forall₂_eq hy fun h hh h' hl => by
    obtain ⟨hj, m', hm', hh'⟩ := hl
    exact hnc m' hm' h' hh' m hm h hh hj
  exact ⟨d, this ▸ h1⟩

/-- C34.  The code violates it: after the header `ab: c` the header `a: bc` is sent as a reference to it and arrives as
`ab: c`.  For the parameters of a new Processor. -/
theorem C34_false : ∃ (fs : List (List Nat)) (st : Enc) (d : Dec),
    let cfg : Cfg := ⟨32768, true, .full, none, true⟩
    encodeAll (fun _ t => t) cfg (Enc.init cfg) [[(b!"ab", b!"c")], [(b!"a", b!"bc")]] = (st, .ok fs) ∧
    decodeAll cfg (Dec.init cfg) fs = .ok (d, [[(b!"ab", b!"c")], [(b!"ab", b!"c")]]) :=
  ⟨_, _, _, rfl, rfl⟩

/-- C34, what holds instead: each message arrives with as many headers as it had, and each of these headers is one that
was sent in the session and equals the one in its place if names and values are joined.  Missing: that it has the same
name and value. -/
theorem C34_partial (cfg : Cfg) (hmax : 0 ≤ cfg.maxSize) (hco : Coded cfg) (order : Order) (ho : ∀ n t, (order n t).Perm t)
    (ms : List (List Hdr)) (hb : ByteSession ms) (st : Enc) (fs : List (List Nat))
    (he : encodeAll order cfg (Enc.init cfg) ms = (st, .ok fs)) :
    ∃ d outs, decodeAll cfg (Dec.init cfg) fs = .ok (d, outs) ∧
      List.Forall₂ (List.Forall₂ fun h h' => h'.1 ++ h'.2 = h.1 ++ h.2 ∧ ∃ m ∈ ms, h' ∈ m) ms outs := by
  obtain ⟨d, outs, _, h1, h2⟩ := session_like hmax hco ho hb he
  exact ⟨d, outs, h1, h2⟩

/-- The tables of encoder and decoder correspond entry by entry. -/
structure InStep (st : Enc) (d : Dec) : Prop where
  headers : ∀ i h, d.headers[i]? = some h ↔ ∃ k e, (k, e) ∈ st.table ∧ e.name = h.1 ∧ e.value = h.2 ∧ e.index = i
  keys : ∀ k e, (k, e) ∈ st.table → k = e.name ++ e.value
  once : (st.table.map (·.1)).Nodup
  count : st.table.length = d.headers.length
  names : ∀ i n, d.names[i]? = some n ↔ (n, i) ∈ st.names
  nameCount : st.names.length = d.names.length
  size : st.size = d.size
  sum : d.size = (((d.headers.map fun h => h.2.length).sum : Nat) : Int)

theorem namesOnto {ns : Dict Str Nat} {ds : List Str} (h : SyncN ns ds) (i : Nat) (hi : i < ds.length) : ∃ n, (n, i) ∈ ns := by
  have hat : ∀ n j, (n, j) ∈ ns → ds[j]? = some n := fun n j hm => h.at_ n j ((Dict.mem_iff_get? h.wf).1 hm)
  have hnd : (ns.map (·.2)).Nodup := by
    refine List.Nodup.map_on ?_ (List.Nodup.of_map _ h.wf)
    rintro ⟨n, j⟩ h1 ⟨n', j'⟩ h2 hj
    cases hj
    have := (hat n j h1).symm.trans (hat n' j h2)
    cases this
    rfl
  have hsub : ns.map (·.2) ⊆ List.range ds.length := by
    intro j hj
    obtain ⟨⟨n, j'⟩, hm, rfl⟩ := List.mem_map.1 hj
    exact List.mem_range.2 (List.getElem?_eq_some_iff.1 (hat n j' hm)).1
  have hp : (ns.map (·.2)).Perm (List.range ds.length) :=
    (List.subperm_of_subset hnd hsub).perm_of_length_le (by rw [List.length_range, List.length_map, h.len])
  obtain ⟨⟨n, j⟩, hm, rfl⟩ := List.mem_map.1 (hp.mem_iff.2 (List.mem_range.2 hi))
  exact ⟨n, hm⟩

theorem inStep {cfg : Cfg} {st : Enc} {d : Dec} (h : Sync cfg st d) : InStep st d := by
  have hrow : ∀ {k : Str} {x : Hdr} {i : Nat}, (k, (x, i)) ∈ rows st.table →
      ∃ e, (k, e) ∈ st.table ∧ e.name = x.1 ∧ e.value = x.2 ∧ e.index = i := by
    intro k x i hm
    obtain ⟨⟨k', e⟩, hm', he⟩ := List.mem_map.1 hm
    cases he
    exact ⟨e, hm', rfl, rfl, rfl⟩
  refine ⟨fun i x => ⟨fun hx => ?_, ?_⟩, fun k e hm => h.table.full k _ _ (mem_rows hm), ?_, ?_, fun i n => ⟨fun hn => ?_, fun hm => ?_⟩,
    h.names.len, h.table.size, h.table.sum⟩
  · obtain ⟨k, x', hm⟩ := h.table.surj i (List.getElem?_eq_some_iff.1 hx).1
    have := h.table.at_ _ _ _ hm
    rw [hx] at this
    cases this
    obtain ⟨e, he⟩ := hrow hm
    exact ⟨k, e, he⟩
  · rintro ⟨k, e, hm, h1, h2, rfl⟩
    have := h.table.at_ _ _ _ (mem_rows hm)
    rw [this, h1, h2]
  · have hw := h.table.wf
    have hk : Dict.keys (rows st.table) = st.table.map (·.1) := by simp [Dict.keys, rows]
    rw [← hk]
    exact hw
  · rw [← rows_length, h.table.len]
  · obtain ⟨n', hm⟩ := namesOnto h.names i (List.getElem?_eq_some_iff.1 hn).1
    have := h.names.at_ n' i ((Dict.mem_iff_get? h.names.wf).1 hm)
    rw [hn] at this
    cases this
    exact hm
  · exact h.names.at_ n i ((Dict.mem_iff_get? h.names.wf).1 hm)

/-- C35.  After every session in which all messages are encoded (with or without collisions), the decoder's headers and
names are the encoder's, entry by entry, and both account for the same size, that of the values. -/
theorem C35_in_step (cfg : Cfg) (hmax : 0 ≤ cfg.maxSize) (hco : Coded cfg) (order : Order) (ho : ∀ n t, (order n t).Perm t)
    (ms : List (List Hdr)) (hb : ByteSession ms) (st : Enc) (fs : List (List Nat))
    (he : encodeAll order cfg (Enc.init cfg) ms = (st, .ok fs)) (d : Dec) (outs : List (List Hdr))
    (hd : decodeAll cfg (Dec.init cfg) fs = .ok (d, outs)) : InStep st d := by
  obtain ⟨d', outs', h1, h2, _⟩ := session_like hmax hco ho hb he
  rw [hd] at h2
  cases h2
  exact inStep h1

/-- C36.  With a buffer that is not negative, the size never exceeds it on either side after a message, and the decoder
does not raise. -/
theorem C36_bounded (cfg : Cfg) (hmax : 0 ≤ cfg.maxSize) (hco : Coded cfg) (order : Order) (ho : ∀ n t, (order n t).Perm t)
    (ms : List (List Hdr)) (hb : ByteSession ms) (st : Enc) (fs : List (List Nat))
    (he : encodeAll order cfg (Enc.init cfg) ms = (st, .ok fs)) :
    st.size ≤ cfg.maxSize ∧ ∃ d outs, decodeAll cfg (Dec.init cfg) fs = .ok (d, outs) ∧ 0 ≤ d.size ∧ d.size ≤ cfg.maxSize := by
  obtain ⟨d, outs, h1, h2, _⟩ := session_like hmax hco ho hb he
  have hs := inStep h1
  have hb := h1.table.bound
  refine ⟨by have := hs.size; omega, d, outs, h2, ?_, hb⟩
  rw [hs.sum]
  omega

/-- C36.  With a negative buffer the decoder raises its exception on the first frame with a header. -/
theorem C36_negative (cfg : Cfg) (hmax : cfg.maxSize < 0) (order : Order) (m : List Hdr) (hne : m ≠ []) (st st' : Enc) (f : List Nat)
    (he : encodeHeaders order cfg st m = (st', .ok f)) : decodeHeaders cfg (Dec.init cfg) f = .error .standard := by
  unfold encodeHeaders packB at he
  by_cases hl : m.length < 256
  · simp only [if_pos hl] at he
    cases h1 : encodeLoop order cfg (grow st) m with
    | mk st1 o1 =>
    rw [h1] at he
    cases o1 with
    | error e => simp at he
    | ok x =>
      simp only [Prod.mk.injEq] at he
      obtain ⟨hdrop, _⟩ := frame_spec he.2
      obtain ⟨a, m', rfl⟩ := List.exists_cons_of_ne_nil hne
      have : (Dec.init cfg).size > cfg.maxSize := hmax
      simp only [decodeHeaders, hdrop, List.cons_append, List.nil_append, readByte, bind, Except.bind, List.length_cons, decodeLoop,
        decodeHeader, if_pos this]
  · simp only [if_neg hl, Prod.mk.injEq, reduceCtorEq, and_false] at he

/-- C37.  Any number, with a prefix of 4, 5, 6 or 8 bits in a byte whose other bits are given. -/
theorem C37_short (p b v : Nat) (hp : p = 4 ∨ p = 5 ∨ p = 6 ∨ p = 8) (hb : b < 256) (hlow : b % 2 ^ p = 0) :
    ∃ low bytes, low < 2 ^ p ∧ writeInteger b p v = .ok ((b + low) :: bytes) ∧ (∀ x ∈ bytes, x < 256) ∧
      ∀ rest, readInteger (b + low) p (bytes ++ rest) = .ok (v, rest) := by
  obtain ⟨low, bytes, h1, h2, h3, h4⟩ := integer_short p b v hp hb (by rw [Nat.and_two_pow_sub_one_eq_mod]; exact hlow)
  have hadd : b ||| low = b + low := by
    obtain ⟨q, rfl⟩ := Nat.dvd_of_mod_eq_zero hlow
    rw [Nat.mul_comm, ← Nat.shiftLeft_eq, ← Nat.shiftLeft_add_eq_or_of_lt h1]
  exact ⟨low, bytes, h1, hadd ▸ h2, h3, fun rest => hadd ▸ h4 rest⟩

/-- C37.  Any number, with no prefix. -/
theorem C37_zero (b v : Nat) : ∃ bytes, writeInteger b 0 v = .ok bytes ∧ (∀ x ∈ bytes, x < 256) ∧
    ∀ c rest, readInteger c 0 (bytes ++ rest) = .ok (v, rest) := by
  obtain ⟨bytes, h1, h2, h3⟩ := integer_zero v
  exact ⟨bytes, h1 b, h2, h3⟩

/-- C37.  A number below 16383, with a prefix of 14 bits. -/
theorem C37_long (b v : Nat) (hb : b < 256) (hlow : b % 64 = 0) (hv : v < 16383) :
    ∃ high low, high < 64 ∧ low < 256 ∧ writeInteger b 14 v = .ok [b + high, low] ∧
      ∀ rest, readInteger (b + high) 14 (low :: rest) = .ok (v, rest) := by
  obtain ⟨high, low, h1, h2, h3, h4⟩ := integer_long b v hb (by
    rw [show (0x3f : Nat) = 2 ^ 6 - 1 from rfl, Nat.and_two_pow_sub_one_eq_mod]; exact hlow) hv
  have hadd : b ||| high = b + high := by
    obtain ⟨q, rfl⟩ := Nat.dvd_of_mod_eq_zero hlow
    rw [show 64 * q = q <<< 6 by rw [Nat.shiftLeft_eq, Nat.mul_comm], ← Nat.shiftLeft_add_eq_or_of_lt (by simpa using h1)]
  exact ⟨high, low, h1, h2, hadd ▸ h3, fun rest => hadd ▸ h4 rest⟩

/-- C37.  A larger number with a prefix of 14 bits raises. -/
theorem C37_long_error (b v : Nat) (hv : 16383 ≤ v) : writeInteger b 14 v = .error .struct := integer_long_error b v hv

/-- C37.  All other sizes of the prefix raise a KeyError. -/
theorem C37_other (p b v : Nat) (hp : p ∉ [0, 4, 5, 6, 8, 14]) : writeInteger b p v = .error .key := by
  simp only [List.mem_cons, List.not_mem_nil, or_false, not_or] at hp
  have : maxValue p = .error .key := by
    simp only [maxValue, maxValues, Dict.get?_cons, Dict.get?]
    simp [hp, Ne.symm]
  simp only [writeInteger, this, bind, Except.bind]

/-- C38.  The code violates it: a message of more than 255 headers raises an error of struct, in any state, and leaves
all headers of the table one message older. -/
theorem C38_false (order : Order) (cfg : Cfg) (st : Enc) (m : List Hdr) (h : 255 < m.length) :
    ∃ st', encodeHeaders order cfg st m = (st', .error .struct) ∧ st'.size = st.size ∧ st'.names = st.names ∧
      st'.table = st.table.map fun p => (p.1, { p.2 with age := p.2.age + 1 }) := by
  refine ⟨grow st, ?_, rfl, rfl, rfl⟩
  simp only [encodeHeaders, packB, if_neg (show ¬ m.length < 256 by omega)]

/-- C38, what holds instead: after a session of at most 16192 headers, a message of at most 255 headers made of bytes that
has, without Huffman codes, at most 65534 bytes together with 13 for each header, is encoded, and gives a frame of its
length.  Missing: all longer messages (some of which are encoded). -/
theorem C38_partial (cfg : Cfg) (hmax : 0 ≤ cfg.maxSize) (hno : cfg.huffman = none) (order : Order) (ho : ∀ n t, (order n t).Perm t)
    (ms : List (List Hdr)) (hb : ByteSession ms) (st : Enc) (fs : List (List Nat))
    (he : encodeAll order cfg (Enc.init cfg) ms = (st, .ok fs)) (hms : (ms.map List.length).sum ≤ 16192)
    (m : List Hdr) (hbm : ∀ h ∈ m, (∀ c ∈ h.1, c < 256) ∧ ∀ c ∈ h.2, c < 256) (hm : m.length ≤ 255)
    (hsize : (m.map fun h => h.1.length + h.2.length + 13).sum ≤ 65534) :
    ∃ st' payload, encodeHeaders order cfg st m =
      (st', .ok ([payload.length / 256, payload.length % 256, 0, 0, 0, 0, 0, 0] ++ payload)) ∧
      payload.length ≤ (m.map fun h => h.1.length + h.2.length + 13).sum + 1 := by
  have hco : Coded cfg := Or.inl hno
  have hcov : Covers cfg := by intro h hh; rw [hno] at hh; cases hh
  have hsum : ∀ l : List Hdr, (l.map fun h => h.1.length + h.2.length + 13).sum = bytesOf l + 13 * l.length := by
    intro l
    induction l with
    | nil => rfl
    | cons x l ih => simp only [List.map_cons, List.sum_cons, bytesOf, List.length_cons] at ih ⊢; omega
  have hgrow : ∀ (ms : List (List Hdr)) (st0 st : Enc) (d : Dec) (fs : List (List Nat)), ByteSession ms → Sync cfg st0 d →
      st0.table.length + (ms.map List.length).sum ≤ 16192 → encodeAll order cfg st0 ms = (st, .ok fs) →
      st.table.length ≤ st0.table.length + (ms.map List.length).sum ∧
      st.names.length ≤ st0.names.length + (ms.map List.length).sum := by
    intro ms
    induction ms with
    | nil =>
      intro st0 st d fs _ _ _ he
      simp only [encodeAll, Prod.mk.injEq] at he
      rw [he.1]
      simp
    | cons x ms ih =>
      intro st0 st d fs hb hsy hl he
      simp only [List.map_cons, List.sum_cons] at hl
      obtain ⟨st1, payload, h1, h2, h3, _⟩ := encodeHeaders_total (coded_ok hco) hcov ho x hsy (fun h hh => hb x (by simp) h hh) (by omega)
      unfold encodeAll at he
      cases h4 : encodeHeaders order cfg st0 x with
      | mk st1' o =>
      have h5 := h1
      rw [h4] at he h5
      cases o with
      | error e => simp at he
      | ok f =>
        simp only [Prod.mk.injEq] at h5
        obtain ⟨rfl, h5⟩ := h5
        obtain ⟨d1, _, hsy1, _⟩ := encodeHeaders_spec (coded_ok hco) ho (fun _ => True) x hsy (fun _ _ => trivial)
          (fun h hh => ⟨hb x (by simp) h hh, trivial⟩) h4
        simp only at he
        cases h6 : encodeAll order cfg st1' ms with
        | mk st2 o2 =>
        rw [h6] at he
        cases o2 with
        | error e => simp at he
        | ok fs2 =>
          simp only [Prod.mk.injEq] at he
          obtain ⟨rfl, _⟩ := he
          have := ih st1' st2 d1 fs2 (fun y hy => hb y (by simp [hy])) hsy1 (by omega) h6
          simp only [List.map_cons, List.sum_cons]
          omega
  obtain ⟨d, outs, hsy, _⟩ := session_like hmax hco ho hb he
  have hi : (Enc.init cfg).table.length = 0 := rfl
  have hn : (Enc.init cfg).names.length ≤ 100 := by
    have : (Enc.init cfg).names.length = (registered cfg.isRequest).length := (init_sync cfg hmax).names.len
    rw [this]
    cases cfg.isRequest <;> decide +kernel
  obtain ⟨ht, hnm⟩ := hgrow ms _ st _ fs hb (init_sync cfg hmax) (by omega) he
  obtain ⟨st1, payload, h1, _, _, h4⟩ := encodeHeaders_total (coded_ok hco) hcov ho m hsy hbm (by omega)
  rw [hsum] at hsize ⊢
  have hp := h4 hno (by omega) (by omega)
  rw [if_neg (by omega)] at h1
  exact ⟨st1, payload, h1, hp⟩

/-- C38.  Exactly when a message is encoded: after any session, with room for its headers in the 14 bits of an index and
a coder that has all bytes and the end of the string, the headers are always written; an error of struct is raised exactly
if there are more than 255 or their bytes with the count are more than 65535. -/
theorem C38_when (cfg : Cfg) (hmax : 0 ≤ cfg.maxSize) (hco : Coded cfg)
    (hcov : ∀ h, cfg.huffman = some h → ∀ c ≤ 256, Dict.has h.encoder c = true) (order : Order) (ho : ∀ n t, (order n t).Perm t)
    (ms : List (List Hdr)) (hb : ByteSession ms) (st : Enc) (fs : List (List Nat))
    (he : encodeAll order cfg (Enc.init cfg) ms = (st, .ok fs)) (m : List Hdr)
    (hbm : ∀ h ∈ m, (∀ c ∈ h.1, c < 256) ∧ ∀ c ∈ h.2, c < 256) (hroom : st.table.length + m.length ≤ 16448) :
    ∃ st' out, encodeLoop order cfg (grow st) m = (st', .ok out) ∧
      (255 < m.length ∨ 65535 < out.length + 1 → (encodeHeaders order cfg st m).2 = .error .struct) ∧
      (¬ (255 < m.length ∨ 65535 < out.length + 1) → encodeHeaders order cfg st m =
        (st', .ok ([(out.length + 1) / 256, (out.length + 1) % 256, 0, 0, 0, 0, 0, 0] ++ m.length :: out))) := by
  obtain ⟨d, outs, hsy, _⟩ := session_like hmax hco ho hb he
  have hcov' : Covers cfg := fun h hh => ⟨fun c hc => hcov h hh c (by omega), hcov h hh 256 (by omega)⟩
  obtain ⟨st', out, h1, _⟩ := encodeLoop_total (coded_ok hco) hcov' ho m (sync_grow hsy) hbm (by rw [grow_length]; exact hroom)
  refine ⟨st', out, h1, fun h => ?_, fun h => ?_⟩
  · by_cases hl : m.length < 256
    · have hp : ¬ (m.length :: out).length < 65536 := by rw [List.length_cons]; omega
      simp only [encodeHeaders, packB, if_pos hl, h1]
      change frame (m.length :: out) = _
      simp only [frame, packH, if_neg hp, bind, Except.bind]
    · simp only [encodeHeaders, packB, if_neg hl]
  · have hl : m.length < 256 := by omega
    have hp : (m.length :: out).length < 65536 := by rw [List.length_cons]; omega
    simp only [encodeHeaders, packB, if_pos hl, h1]
    congr 1
    change frame (m.length :: out) = _
    simp only [frame, packH, packB, packL, if_pos hp, bind, Except.bind, Nat.zero_lt_succ, if_true]
    rfl

/-- C39.  `common_prefix` is the length of the longest common prefix. -/
theorem C39_common_prefix (s t : Str) (k : Nat) :
    k ≤ commonPrefix s t ↔ k ≤ s.length ∧ k ≤ t.length ∧ s.take k = t.take k := by
  constructor
  · intro h
    obtain ⟨h1, h2⟩ := commonPrefix_le s t
    exact ⟨by omega, by omega, take_le (commonPrefix_take s t) h⟩
  · rintro ⟨h1, h2, h3⟩
    exact commonPrefix_max s t k h1 h2 h3

/-- C39.  `common_prefix_limited` is 0 or the length of a common prefix that ends in one of the limits, and no longer
common prefix does. -/
theorem C39_limited (s t limits : Str) :
    (commonPrefixLimited s t limits = 0 ∨ ∃ p c r r', p.length + 1 = commonPrefixLimited s t limits ∧ c ∈ limits ∧
      s = p ++ [c] ++ r ∧ t = p ++ [c] ++ r') ∧
    ∀ p c r r', c ∈ limits → s = p ++ [c] ++ r → t = p ++ [c] ++ r' → p.length + 1 ≤ commonPrefixLimited s t limits := by
  obtain ⟨h1, h2, h3⟩ := limitedLoop_spec s limits (commonPrefix s t)
  unfold commonPrefixLimited
  generalize limitedLoop s limits (commonPrefix s t) = k at h1 h2 h3
  have hk := (C39_common_prefix s t k).1 h1
  refine ⟨?_, fun p c r r' hc hs ht => ?_⟩
  · by_cases h0 : k = 0
    · exact Or.inl h0
    · obtain ⟨c, hc, hl⟩ := h2 h0
      refine Or.inr ⟨s.take (k - 1), c, s.drop k, t.drop k, ?_, hl, ?_, ?_⟩
      · rw [List.length_take]; omega
      · have : s.take k = s.take (k - 1) ++ [c] := by
          obtain ⟨j, rfl⟩ : ∃ j, k = j + 1 := ⟨k - 1, by omega⟩
          rw [Nat.add_sub_cancel] at hc ⊢
          rw [List.take_add_one, hc]
          rfl
        rw [← this, List.take_append_drop]
      · have : s.take k = s.take (k - 1) ++ [c] := by
          obtain ⟨j, rfl⟩ : ∃ j, k = j + 1 := ⟨k - 1, by omega⟩
          rw [Nat.add_sub_cancel] at hc ⊢
          rw [List.take_add_one, hc]
          rfl
        rw [← this, hk.2.2, List.take_append_drop]
  · by_contra hlt
    have hle : p.length + 1 ≤ commonPrefix s t := by
      rw [C39_common_prefix]
      rw [hs, ht]
      have : (p ++ [c]).length = p.length + 1 := by simp
      refine ⟨by simp, by simp, ?_⟩
      rw [← this, List.take_left, List.take_left]
    exact h3 (p.length + 1) c (by omega) hle (by rw [hs]; simp) hc

/-- C39.  The choice for a header that is not in the table.  A delta refers to an entry of the table with the same name,
which was used less often than the limit, if there is one; the prefix has at least two characters, ends in a delimiter, if
there are any, and is as long as with any entry that may be used; and prefix and rest together are the value. -/
theorem C39_delta (order : Order) (ho : ∀ n t, (order n t).Perm t) (cfg : Cfg) (st : Enc) (name value : Str)
    (hk : (chooseNew order cfg st name value).kind = .delta) :
    ∃ k e, (k, e) ∈ st.table ∧ (chooseNew order cfg st name value).reference = some e ∧ e.name = name ∧
      cfg.deltaUsage = true ∧
      2 ≤ (chooseNew order cfg st name value).prefixLength ∧
      e.value.take (chooseNew order cfg st name value).prefixLength ++ value.drop (chooseNew order cfg st name value).prefixLength = value ∧
      (match cfg.deltaType with
        | .full => (chooseNew order cfg st name value).prefixLength = commonPrefix value e.value ∧
          ∀ k' e', (k', e') ∈ st.table → e'.name = name →
            commonPrefix value e'.value ≤ (chooseNew order cfg st name value).prefixLength
        | .bound limits => (chooseNew order cfg st name value).prefixLength = commonPrefixLimited value e.value limits ∧
          ∀ k' e', (k', e') ∈ st.table → e'.name = name →
            commonPrefixLimited value e'.value limits ≤ (chooseNew order cfg st name value).prefixLength
        | .max n => (e.deltaUsage : Int) < n ∧ (chooseNew order cfg st name value).prefixLength = commonPrefix value e.value ∧
          ∀ k' e', (k', e') ∈ st.table → e'.name = name → (e'.deltaUsage : Int) < n →
            commonPrefix value e'.value ≤ (chooseNew order cfg st name value).prefixLength) := by
  have hch := chooseNew_spec ho cfg st name value
  generalize chooseNew order cfg st name value = hr at hch hk
  obtain ⟨hd, k, e, hm, hre, hu, hp, h2, hmax⟩ := hch.delta hk
  refine ⟨k, e, hm, hre, hu.1, hd, h2, by rw [hp]; exact shared_join _ _ _, ?_⟩
  cases ht : cfg.deltaType with
  | full =>
    rw [ht] at hp hmax
    exact ⟨hp, fun k' e' hm' hn => hmax k' e' hm' ⟨hn, rfl⟩⟩
  | bound limits =>
    rw [ht] at hp hmax
    exact ⟨hp, fun k' e' hm' hn => hmax k' e' hm' ⟨hn, rfl⟩⟩
  | max n =>
    rw [ht] at hp hmax hu
    refine ⟨by have := hu.2; simpa [usedUp] using this, hp, fun k' e' hm' hn hlt => hmax k' e' hm' ⟨hn, ?_⟩⟩
    simp only [usedUp, decide_eq_false_iff_not]
    omega

/-- C40.  For every table of two symbols or more and every order of its dictionary there is a codec; for every string of
bytes whose symbols, with the end of the string, are in the table, decoding the encoded string followed by anything
returns the string and the number of bytes of its code. -/
theorem C40_strings (order : List (Nat × Nat) → List (Nat × Nat)) (ho : ∀ l, (order l).Perm l) (stats : List (Nat × Nat))
    (hnd : (stats.map (·.1)).Nodup) (hlen : 2 ≤ stats.length) :
    ∃ h, HCodec.make order stats = .ok h ∧ ∀ s : Str, (∀ c ∈ s, c < 256) → (∀ c ∈ s ++ [256], c ∈ stats.map (·.1)) →
      ∃ code, h.encode s = .ok code ∧ (∀ x ∈ code, x < 256) ∧ ∀ rest, h.decode (code ++ rest) = .ok (s, code.length) := by
  obtain ⟨h, hm, hc⟩ := make_spec order stats (ho _) hnd hlen
  refine ⟨h, hm, fun s hs hall => ?_⟩
  have hh : ∀ c ∈ s ++ [256], Dict.has h.encoder c = true := fun c hx => (hc.keys c).2 (hall c hx)
  refine ⟨_, encode_spec h s (fun c hx => hh c (by simp [hx])) (hh 256 (by simp)), Bits.pack_lt _, fun rest => ?_⟩
  exact decode_spec hc s hs hh rest

/-- C40.  A string with a character that is not in the table, or a table without the end of the string, raises a KeyError. -/
theorem C40_missing (order : List (Nat × Nat) → List (Nat × Nat)) (ho : ∀ l, (order l).Perm l) (stats : List (Nat × Nat))
    (hnd : (stats.map (·.1)).Nodup) (hlen : 2 ≤ stats.length) (h : HCodec) (hm : HCodec.make order stats = .ok h)
    (s : Str) (hs : ∃ c ∈ s ++ [256], c ∉ stats.map (·.1)) : h.encode s = .error .key := by
  obtain ⟨h', hm', hc⟩ := make_spec order stats (ho _) hnd hlen
  rw [hm] at hm'
  cases hm'
  obtain ⟨c, hx, hn⟩ := hs
  refine encode_error h s ⟨c, hx, ?_⟩
  have := hc.keys c
  cases hb : Dict.has h.encoder c with
  | false => rfl
  | true => exact absurd (this.1 hb) hn

/-- C40.  The shipped tables have all bytes and the end of the string, so all strings survive. -/
theorem C40_shipped (stats : List (Nat × Nat)) (hst : stats = requestStats ∨ stats = responseStats) :
    (stats.map (·.1)).Nodup ∧ 2 ≤ stats.length ∧ ∀ s : Str, (∀ c ∈ s, c < 256) → ∀ c ∈ s ++ [256], c ∈ stats.map (·.1) := by
  have hk : stats.map (·.1) = List.range 257 ∧ 2 ≤ stats.length := by
    rcases hst with rfl | rfl <;> decide +kernel
  refine ⟨by rw [hk.1]; exact List.nodup_range, hk.2, fun s hs c hc => ?_⟩
  rw [hk.1, List.mem_range]
  rcases List.mem_append.1 hc with hc | hc
  · have := hs c hc; omega
  · rw [List.mem_singleton.1 hc]; omega

/-! ### The Processor -/

/-- A value that neither starts nor ends with a tab, a line feed, a vertical tab, a form feed or a carriage return. -/
def Stripped (x : Str) : Prop := ∀ c, x.head? = some c ∨ x.getLast? = some c → c < 9 ∨ 13 < c

theorem isWs_iff (c : Nat) : isWs c = false ↔ (c < 9 ∨ 13 < c) ∧ c ≠ 32 := by
  unfold isWs
  simp
  omega

theorem stripWs_space (p : Str) : stripWs (stripSpace p) = stripWs p := by
  obtain ⟨a, b, hp, ha, hb, _, _⟩ := stripBy_spec (· == 32) p
  obtain ⟨a', b', hq, ha', hb', h1, h2⟩ := stripBy_spec isWs (stripBy (· == 32) p)
  have hws : ∀ c, (c == 32) = true → isWs c = true := by
    intro c hc
    have : c = 32 := by simpa using hc
    rw [this]; decide
  have := stripBy_unique (p := isWs) (a := a ++ a') (b := b' ++ b) (x := stripBy isWs (stripBy (· == 32) p)) (by
    intro c hc
    rcases List.mem_append.1 hc with hc | hc
    · exact hws c (ha c hc)
    · exact ha' c hc) (by
    intro c hc
    rcases List.mem_append.1 hc with hc | hc
    · exact hb' c hc
    · exact hws c (hb c hc)) h1 h2
  have hp' : p = a ++ a' ++ stripBy isWs (stripBy (· == 32) p) ++ (b' ++ b) := by
    calc p = a ++ stripBy (· == 32) p ++ b := hp
      _ = a ++ (a' ++ stripBy isWs (stripBy (· == 32) p) ++ b') ++ b := by rw [← hq]
      _ = _ := by simp
  rw [← hp'] at this
  exact this.symm

theorem stripped_iff (p : Str) : Stripped (stripSpace p) ↔ stripSpace p = stripWs p := by
  constructor
  · intro h
    rw [← stripWs_space]
    obtain ⟨_, _, _, _, _, h1, h2⟩ := stripBy_spec (· == 32) p
    refine (stripBy_id (fun c hc => ?_) (fun c hc => ?_)).symm
    · exact (isWs_iff c).2 ⟨h c (Or.inl hc), by have := h1 c hc; simpa using this⟩
    · exact (isWs_iff c).2 ⟨h c (Or.inr hc), by have := h2 c hc; simpa using this⟩
  · intro h c hc
    obtain ⟨_, _, _, _, _, h1, h2⟩ := stripBy_spec isWs p
    rw [h] at hc
    rcases hc with hc | hc
    · exact ((isWs_iff c).1 (h1 c hc)).1
    · exact ((isWs_iff c).1 (h2 c hc)).1

/-- A message for a Processor: a dictionary of headers, and the order in which its items are listed. -/
abbrev Message := Dict Str Str × (Dict Str Str → List (Str × Str))

/-- C60.  For every buffer, every mode of delta coding, with or without Huffman codes, any session of dictionaries made of
bytes whose parts do not collide, in any order: if all messages are compressed, they are all decompressed, and the tester
reports no difference between what was sent and what was decompressed exactly if no value it sees starts or ends with white
space other than spaces. -/
theorem C60_session (cfg : Cfg) (hmax : 0 ≤ cfg.maxSize) (hco : Coded cfg) (order : Order) (ho : ∀ n t, (order n t).Perm t)
    (ms : List Message) (hit : ∀ m ∈ ms, (m.2 m.1).Perm m.1)
    (hb : ∀ m ∈ ms, ∀ kv ∈ m.1, (∀ c ∈ kv.1, c < 256) ∧ ∀ c ∈ kv.2, c < 256)
    (hnc : NoCollision (ms.map fun m => splitFromDict (m.2 m.1))) (st : Enc) (fs : List (List Nat))
    (he : compressAll order cfg (Enc.init cfg) ms = (st, .ok fs)) :
    ∃ d outs, decompressAll cfg (Dec.init cfg) fs = .ok (d, outs) ∧
      List.Forall₂ (fun (m : Message) out => ∀ (ord : List Hdr → List Hdr), (∀ l, (ord l).Perm l) → ∀ n1 n2,
        (compareHeaders ord m.1 n1 out n2 = [] ↔ ∀ name x, Shows m.1 name x → Stripped x)) ms outs := by
  have hbs : ByteSession (ms.map fun m => splitFromDict (m.2 m.1)) := by
    intro l hl h hh
    obtain ⟨m, hm, rfl⟩ := List.mem_map.1 hl
    obtain ⟨name, x⟩ := h
    obtain ⟨v, p, hv, hp, rfl⟩ := splitFromDict_mem.1 hh
    obtain ⟨h1, h2⟩ := hb m hm _ ((hit m hm).mem_iff.1 hv)
    refine ⟨h1, fun c hc => h2 c ?_⟩
    obtain ⟨_, a, b, rfl, _⟩ := mem_splitOn.1 hp
    have := stripBy_sub hc
    simp [this]
  obtain ⟨d, hd⟩ := C33_session cfg hmax hco order ho _ hbs hnc st fs he
  refine ⟨d, _, decompressAll_eq cfg fs hd, ?_⟩
  rw [List.map_map, List.forall₂_map_right_iff, List.forall₂_same]
  intro m hm ord hord n1 n2
  rw [C46_compare_headers_iff ord hord]
  have hmem : ∀ name v, (name, v) ∈ m.2 m.1 ↔ (name, v) ∈ m.1 := fun name v => (hit m hm).mem_iff
  have hshow : ∀ {name x}, Shows m.1 name x ↔ name ≠ b!":version" ∧ name ≠ b!":status-text" ∧ name ≠ b!"connection" ∧
      ∃ v p, (name, v) ∈ m.1 ∧ p ∈ splitOn (sepOf name) v ∧ stripSpace p = x := by
    intro name x
    unfold Shows
    simp only [← mem_splitOn, isTrim_iff]
  constructor
  · intro heq name x hs
    have h2 := (heq name x).1 hs
    obtain ⟨_, _, _, hx⟩ := shows_joined.1 h2
    obtain ⟨v, p, _, _, rfl⟩ := splitFromDict_mem.1 hx
    intro c hc
    obtain ⟨_, _, _, _, _, h1, h2⟩ := stripBy_spec isWs p
    rcases hc with hc | hc
    · exact ((isWs_iff c).1 (h1 c hc)).1
    · exact ((isWs_iff c).1 (h2 c hc)).1
  · intro hst name x
    refine ⟨fun hs => ?_, fun hs => ?_⟩
    · have h1 := hst name x hs
      obtain ⟨a1, a2, a3, v, p, hv, hp, rfl⟩ := hshow.1 hs
      exact shows_joined.2 ⟨a1, a2, a3, splitFromDict_mem.2 ⟨v, p, (hmem _ _).2 hv, hp, (stripped_iff p).1 h1⟩⟩
    · obtain ⟨a1, a2, a3, hx⟩ := shows_joined.1 hs
      obtain ⟨v, p, hv, hp, rfl⟩ := splitFromDict_mem.1 hx
      have hs' : Shows m.1 name (stripSpace p) := hshow.2 ⟨a1, a2, a3, v, p, (hmem _ _).1 hv, hp, rfl⟩
      rw [← (stripped_iff p).1 (hst _ _ hs')]
      exact hs'

/-- The parameters of a new Processor for requests (__init__.py 112-118). -/
def defaultCfg : Cfg := ⟨32768, true, .full, none, true⟩

/-- The encoder after the header `x: 1` of a first message. -/
def afterX : Enc := (encodeHeader (fun _ t => t) defaultCfg (grow (Enc.init defaultCfg)) (b!"x", b!"1")).1

theorem ok_of_toOption {α : Type} {r : Py α} {a : α} (h : r.toOption = some a) : r = .ok a := by
  cases r with
  | error e => cases h
  | ok b => cases h; rfl

theorem afterX_out : encodeHeader (fun _ t => t) defaultCfg (grow (Enc.init defaultCfg)) (b!"x", b!"1") =
    (afterX, .ok [32, 1, 120, 1, 49]) := by
  refine Prod.ext rfl (ok_of_toOption ?_)
  decide +kernel

theorem afterX_table : afterX.table = [([120, 49], ⟨b!"x", b!"1", 0, 0, 0⟩)] := by decide +kernel

theorem afterX_size : afterX.size = 1 := by decide +kernel

theorem afterX_names : Dict.get? afterX.names b!"yy" = none := by decide +kernel

theorem second_header (v : Str) (hv : 65535 < v.length) :
    ∃ st2 bs, encodeHeader (fun _ t => t) defaultCfg afterX (b!"yy", v) = (st2, .ok ([0, 2, 121, 121] ++ (bs ++ v))) ∧
      st2.table = afterX.table := by
  have hget : Dict.get? afterX.table (b!"yy" ++ v) = none := by
    rw [afterX_table]
    simp [Dict.get?]
  have hch : chooseNew (fun _ t => t) defaultCfg afterX b!"yy" v = {} := by
    have hlen : ¬ afterX.size + (v.length : Int) < defaultCfg.maxSize := by
      rw [afterX_size]
      change ¬ (1 : Int) + (v.length : Int) < 32768
      omega
    have hd : defaultCfg.deltaUsage = true := rfl
    simp only [chooseNew, hd, Bool.not_true, Bool.false_and, Bool.false_eq_true, if_false, if_true, afterX_table, bestLoop, lruLoop, if_neg hlen]
    simp
  obtain ⟨bs, hw, _⟩ := integer_zero v.length
  refine ⟨{ afterX with ticks := afterX.ticks + 1, names := Dict.set afterX.names b!"yy" afterX.names.length }, bs, ?_, rfl⟩
  have hws : writeString defaultCfg v = .ok (bs ++ v) := by
    have hh : defaultCfg.huffman = none := rfl
    simp only [writeString, hh, hw, bind, Except.bind]
  have hname : writeName defaultCfg { afterX with ticks := afterX.ticks + 1 } 0 5 b!"yy" =
      ({ afterX with ticks := afterX.ticks + 1, names := Dict.set afterX.names b!"yy" afterX.names.length }, .ok [0, 2, 121, 121]) := by
    simp only [writeName, afterX_names]
    rfl
  simp only [encodeHeader, determine, hget, hch]
  simp [writeNew, applyIndexing, writeLiteral, hname, hws, bind, Except.bind]

theorem frame_error {data : List Nat} (h : 65535 < data.length) : frame data = .error .struct := by
  have : ¬ data.length < 65536 := by omega
  simp only [frame, packH, if_neg this, bind, Except.bind]

theorem long_payload (a b v : List Nat) (h : 65535 < v.length) : 65535 < (a ++ (b ++ v)).length := by
  rw [List.length_append, List.length_append]
  omega

theorem too_long {order : Order} {cfg : Cfg} {st st' : Enc} {hs : List Hdr} {out : List Nat} (hn : hs.length < 256)
    (hl : encodeLoop order cfg (grow st) hs = (st', .ok out)) (h : 65535 < out.length) :
    encodeHeaders order cfg st hs = (st', .error .struct) := by
  have hf : frame ([hs.length] ++ out) = .error .struct := frame_error (by rw [List.length_append]; omega)
  simp only [encodeHeaders, packB, if_pos hn, hl, hf]

theorem loop_two {order : Order} {cfg : Cfg} {st s1 s2 : Enc} {h1 h2 : Hdr} {a b : List Nat}
    (e1 : encodeHeader order cfg st h1 = (s1, .ok a)) (e2 : encodeHeader order cfg s1 h2 = (s2, .ok b)) :
    encodeLoop order cfg st [h1, h2] = (s2, .ok (a ++ (b ++ []))) := by
  simp only [encodeLoop, e1, e2]

theorem first_message (v : Str) (hv : 65535 < v.length) : ∃ st2,
    encodeHeaders (fun _ t => t) defaultCfg (Enc.init defaultCfg) [(b!"x", b!"1"), (b!"yy", v)] = (st2, .error .struct) ∧
    st2.table = [([120, 49], ⟨b!"x", b!"1", 0, 0, 0⟩)] := by
  obtain ⟨st2, bs, hsec, ht2⟩ := second_header v hv
  rw [afterX_table] at ht2
  refine ⟨st2, ?_, ht2⟩
  refine too_long (hs := [(b!"x", b!"1"), (b!"yy", v)]) (out := [32, 1, 120, 1, 49] ++ ([0, 2, 121, 121] ++ (bs ++ v) ++ []))
    (show 2 < 256 by omega) ?_ ?_
  · exact loop_two afterX_out hsec
  · have h4 : [32, 1, 120, 1, 49] ++ ([0, 2, 121, 121] ++ (bs ++ v) ++ []) = ([32, 1, 120, 1, 49] ++ [0, 2, 121, 121]) ++ (bs ++ v) := by simp
    rw [h4]
    exact long_payload _ bs v hv

theorem second_message (st2 : Enc) (ht2 : st2.table = [([120, 49], ⟨b!"x", b!"1", 0, 0, 0⟩)]) :
    (encodeHeaders (fun _ t => t) defaultCfg st2 [(b!"x", b!"1")]).2 = .ok [0, 2, 0, 0, 0, 0, 0, 0, 1, 128] := by
  have hg : (grow st2).table = [([120, 49], ⟨b!"x", b!"1", 0, 1, 0⟩)] := by rw [grow, ht2]; rfl
  have hd : encodeHeader (fun _ t => t) defaultCfg (grow st2) (b!"x", b!"1") =
      ({ grow st2 with table := [([120, 49], ⟨b!"x", b!"1", 0, 0, 0⟩)], ticks := st2.ticks + 1 }, .ok [128]) := by
    simp only [encodeHeader, determine, hg]
    rfl
  have h1 : packB [((b!"x", b!"1") : Hdr)].length = .ok [1] := rfl
  have hf2 : frame ([1] ++ ([128] ++ [])) = .ok [0, 2, 0, 0, 0, 0, 0, 0, 1, 128] := ok_of_toOption (by decide +kernel)
  simp only [encodeHeaders, h1, encodeLoop, hd, hf2]

/-- C61.  The code violates it: if a message of two headers has a value of more than 65535 bytes, `encodeHeaders` raises after the
other header was put into the table; the next message that has it is encoded as a reference, on which the decoder raises an
IndexError.  For the parameters of a new Processor. -/
theorem C61_false (v : Str) (hv : 65535 < v.length) :
    let first := encodeHeaders (fun _ t => t) defaultCfg (Enc.init defaultCfg) [(b!"x", b!"1"), (b!"yy", v)]
    first.2 = .error .struct ∧
    ∃ f, (encodeHeaders (fun _ t => t) defaultCfg first.1 [(b!"x", b!"1")]).2 = .ok f ∧
      decodeHeaders defaultCfg (Dec.init defaultCfg) f = .error .index := by
  obtain ⟨st2, h1, h2⟩ := first_message v hv
  simp only [h1]
  exact ⟨trivial, _, second_message st2 h2, by decide +kernel⟩

/-- The messages of a session that were encoded, with their frames; the encoder goes on after an exception. -/
def encodeOn (order : Order) (cfg : Cfg) : Enc → List (List Hdr) → List (List Hdr × List Nat)
  | _, [] => []
  | st, m :: ms =>
    match encodeHeaders order cfg st m with
    | (st, .error _) => encodeOn order cfg st ms
    | (st, .ok f) => (m, f) :: encodeOn order cfg st ms

/-- The headers that the table holds, with their numbers, their total size and the table of names. -/
def Holds (st : Enc) : List (Str × Str × Str × Nat) × Int × Dict Str Nat :=
  (st.table.map fun p => (p.1, p.2.name, p.2.value, p.2.index), st.size, st.names)

/-- Every message of a session on which the encoder raises has more than 255 headers, or leaves the tables as they were. -/
def Harmless (order : Order) (cfg : Cfg) : Enc → List (List Hdr) → Prop
  | _, [] => True
  | st, m :: ms =>
    (∀ e, (encodeHeaders order cfg st m).2 = .error e → 255 < m.length ∨ Holds (encodeHeaders order cfg st m).1 = Holds st) ∧
    Harmless order cfg (encodeHeaders order cfg st m).1 ms

theorem sync_holds {cfg : Cfg} {st st' : Enc} {d : Dec} (h : Sync cfg st d) (he : Holds st' = Holds st) : Sync cfg st' d := by
  simp only [Holds, Prod.mk.injEq] at he
  obtain ⟨h1, h2, h3⟩ := he
  have hr : rows st'.table = rows st.table := by
    have := congrArg (List.map fun p : Str × Str × Str × Nat => (p.1, ((p.2.1, p.2.2.1), p.2.2.2))) h1
    simpa [rows, Entry.row, Function.comp_def] using this
  exact ⟨by rw [hr, h2]; exact h.table, by rw [h3]; exact h.names⟩

theorem encodeOn_spec {cfg : Cfg} (hco : CoderOk cfg) {order : Order} (ho : OrderOk order) (S : Hdr → Prop) (ms : List (List Hdr)) :
    ∀ {st : Enc} {d : Dec}, Sync cfg st d → From S d → (∀ m ∈ ms, ∀ h ∈ m, Bytes h ∧ S h) → Harmless order cfg st ms →
    ∃ d' outs, decodeAll cfg d ((encodeOn order cfg st ms).map (·.2)) = .ok (d', outs) ∧
      List.Forall₂ (List.Forall₂ (Like S)) ((encodeOn order cfg st ms).map (·.1)) outs := by
  induction ms with
  | nil => intro st d _ _ _ _; exact ⟨d, [], rfl, .nil⟩
  | cons m ms ih =>
    intro st d hsy hf hb hh
    obtain ⟨h1, h2⟩ := hh
    have hb' : ∀ x ∈ ms, ∀ h ∈ x, Bytes h ∧ S h := fun x hx => hb x (by simp [hx])
    cases he : encodeHeaders order cfg st m with
    | mk st1 o1 =>
    rw [he] at h1 h2
    cases o1 with
    | error e =>
      have hsy' : Sync cfg st1 d := by
        rcases h1 e rfl with h | h
        · rw [encodeHeaders, packB, if_neg (by omega)] at he
          rw [← (Prod.mk.inj he).1]
          exact sync_grow hsy
        · exact sync_holds hsy h
      simpa only [encodeOn, he] using ih hsy' hf hb' h2
    | ok f =>
      obtain ⟨d1, hs', hsy1, hf1, hd1, hall1⟩ := encodeHeaders_spec hco ho S m hsy hf (hb m (by simp)) he
      obtain ⟨d2, outs, hd2, hall2⟩ := ih hsy1 hf1 hb' h2
      refine ⟨d2, hs' :: outs, ?_, ?_⟩
      · simp only [encodeOn, he, List.map_cons, decodeAll, hd1, hd2, bind, Except.bind]
      · simp only [encodeOn, he, List.map_cons]
        exact .cons hall1 hall2

/-- C61, what holds instead: if every message on which the encoder raises has more than 255 headers, or leaves the tables as they
were, then all the messages that were encoded are decoded.  Missing: the other exceptions. -/
theorem C61_partial (cfg : Cfg) (hmax : 0 ≤ cfg.maxSize) (hco : Coded cfg) (order : Order) (ho : ∀ n t, (order n t).Perm t)
    (ms : List (List Hdr)) (hb : ByteSession ms) (hnc : NoCollision ms) (hh : Harmless order cfg (Enc.init cfg) ms) :
    ∃ d, decodeAll cfg (Dec.init cfg) ((encodeOn order cfg (Enc.init cfg) ms).map (·.2)) =
      .ok (d, (encodeOn order cfg (Enc.init cfg) ms).map (·.1)) := by
  obtain ⟨d, outs, h1, h2⟩ := encodeOn_spec (coded_ok hco) ho (Sent ms) ms (init_sync cfg hmax) (init_from _ _)
    (fun m hm h hh => ⟨hb m hm h hh, m, hm, hh⟩) hh
  have hsub : ∀ (ms : List (List Hdr)) (st : Enc), ∀ m ∈ (encodeOn order cfg st ms).map (·.1), m ∈ ms := by
    intro ms
    induction ms with
    | nil => intro st m hm; simp [encodeOn] at hm
    | cons x xs ih =>
      intro st m hm
      unfold encodeOn at hm
      cases he : encodeHeaders order cfg st x with
      | mk st1 o1 =>
      rw [he] at hm
      cases o1 with
      | error e => exact List.mem_cons_of_mem _ (ih st1 m hm)
      | ok f =>
        simp only [List.map_cons, List.mem_cons] at hm
        rcases hm with rfl | hm
        · simp
        · exact List.mem_cons_of_mem _ (ih st1 m hm)
  have : outs = (encodeOn order cfg (Enc.init cfg) ms).map (·.1) :=
    forall₂_eq h2 fun m hm y hy => forall₂_eq hy fun h hh h' hl => by
      obtain ⟨hj, m', hm', hh'⟩ := hl
      exact hnc m' hm' h' hh' m (hsub ms _ m hm) h hh hj
  exact ⟨d, this ▸ h1⟩

/-- A session with a message of 256 headers in the middle. -/
example : Harmless (fun _ t => t) defaultCfg (Enc.init defaultCfg)
      [[(b!"x", b!"1")], List.replicate 256 (b!"y", b!"2"), [(b!"x", b!"1"), (b!"y", b!"2")]] ∧
    (encodeOn (fun _ t => t) defaultCfg (Enc.init defaultCfg)
      [[(b!"x", b!"1")], List.replicate 256 (b!"y", b!"2"), [(b!"x", b!"1"), (b!"y", b!"2")]]).map (·.1) =
        [[(b!"x", b!"1")], [(b!"x", b!"1"), (b!"y", b!"2")]] := by
  refine ⟨⟨fun e h => ?_, ⟨fun e h => .inl (by decide +kernel), ⟨fun e h => ?_, trivial⟩⟩⟩, by decide +kernel⟩
  · have hok : (encodeHeaders (fun _ t => t) defaultCfg (Enc.init defaultCfg) [(b!"x", b!"1")]).2.toOption.isSome = true := by
      decide +kernel
    rw [h] at hok
    cases hok
  · have hok : (encodeHeaders (fun _ t => t) defaultCfg (encodeHeaders (fun _ t => t) defaultCfg
        (encodeHeaders (fun _ t => t) defaultCfg (Enc.init defaultCfg) [(b!"x", b!"1")]).1
        (List.replicate 256 (b!"y", b!"2"))).1 [(b!"x", b!"1"), (b!"y", b!"2")]).2.toOption.isSome = true := by
      decide +kernel
    rw [h] at hok
    cases hok


/-! ### Cases that meet the hypotheses -/

/-- Three messages: new headers, the same with a longer path, and one that takes the place of another. -/
def hdSession : List (List Hdr) :=
  [[(b!":path", b!"/index"), (b!"host", b!"www.a.com"), (b!"cookie", b!"a=1")],
   [(b!":path", b!"/index.html"), (b!"host", b!"www.a.com"), (b!"cookie", b!"a=1")],
   [(b!"x-new", b!"0123456789"), (b!"host", b!"www.b.org")],
   [(b!"x-new", b!"0123456789"), (b!"accept", b!"abcdefgh")]]

/-- The hypotheses on messages. -/
example : ByteSession hdSession ∧ NoCollision hdSession := by
  unfold ByteSession NoCollision
  decide +kernel

/-- The frames, what is decoded and the sizes at the end. -/
def hdRun (cfg : Cfg) (ms : List (List Hdr)) : Py (List (List Nat) × List (List Hdr) × Int × Int) :=
  match encodeAll (fun _ t => t.reverse) cfg (Enc.init cfg) ms with
  | (_, .error e) => .error e
  | (st, .ok fs) => do
    let (d, outs) ← decodeAll cfg (Dec.init cfg) fs
    .ok (fs, outs, st.size, d.size)

/-- With a buffer of 32 bytes and delta coding: the longer path is sent as a delta in the second message, and a new header takes
the place of an old one in the last. -/
example : (hdRun ⟨32, true, .full, none, true⟩ hdSession).toOption.map (·.2) = some (hdSession, 30, 30) := by
  decide +kernel

/-- The second frame: a delta to entry 0 with a prefix of 6 bytes that takes its place, and two references. -/
example : (hdRun ⟨32, true, .full, none, true⟩ hdSession).toOption.map (·.1[1]?) =
    some (some ([0, 11, 0, 0, 0, 0, 0, 0] ++ [3, 0x70, 6, 5] ++ b!".html" ++ [0x81, 0x82])) := by
  decide +kernel

/-- With the Huffman codes of requests and delimiters. -/
example : ((HCodec.make List.reverse requestStats).toOption.map fun h =>
    (hdRun ⟨32768, true, .bound b!"/", some h, true⟩ hdSession).toOption.map (·.2.1)) = some (some hdSession) := by
  decide +kernel

/-- Such a codec is meant by `Coded`. -/
example : ∃ h, Coded ⟨32768, true, .bound b!"/", some h, true⟩ := by
  obtain ⟨h1, h2, _⟩ := C40_shipped requestStats (Or.inl rfl)
  obtain ⟨h, hm, _⟩ := C40_strings List.reverse List.reverse_perm requestStats h1 h2
  exact ⟨h, Or.inr ⟨_, _, h, List.reverse_perm, h1, h2, hm, rfl⟩⟩

/-- A negative buffer (C36_negative). -/
example : ∃ st f, encodeHeaders (fun _ t => t) ⟨-1, true, .full, none, true⟩ (Enc.init ⟨-1, true, .full, none, true⟩)
    [(b!"a", b!"b")] = (st, .ok f) := ⟨_, _, rfl⟩

/-- Integers (C37). -/
example : (writeInteger 0x20 4 300).toOption = some [0x2f, 0x9d, 2] ∧ (writeInteger 0 0 300).toOption = some [0xac, 2] ∧
    (writeInteger 0xc0 14 300).toOption = some [0xc1, 44] ∧ (readInteger 0x2f 4 [0x9d, 2, 7]).toOption = some (300, [7]) := by
  decide +kernel

/-- Prefixes (C39). -/
example : commonPrefix b!"/a/b/cd" b!"/a/b/ce" = 6 ∧ commonPrefixLimited b!"/a/b/cd" b!"/a/b/ce" b!"/" = 5 ∧
    commonPrefixLimited b!"abc" b!"abd" b!"/" = 0 := by decide +kernel

/-- A delta is chosen (C39_delta), and once its reference was used as often as the limit, it is not. -/
example : (chooseNew (fun _ t => t) ⟨32768, true, .max 2, none, true⟩
      { table := [(b!"a/x/y", { name := b!"a", value := b!"/x/y", index := 0, deltaUsage := 1 })], size := 4, names := [], ticks := 0 }
      b!"a" b!"/x/z") = ⟨.delta, some { name := b!"a", value := b!"/x/y", index := 0, deltaUsage := 1 }, .incremental, 3⟩ ∧
    (chooseNew (fun _ t => t) ⟨32768, true, .max 2, none, true⟩
      { table := [(b!"a/x/y", { name := b!"a", value := b!"/x/y", index := 0, deltaUsage := 2 })], size := 4, names := [], ticks := 0 }
      b!"a" b!"/x/z").kind = .literal := by decide +kernel

/-- A string with the codes of responses (C40), followed by other bytes. -/
example : ((HCodec.make id responseStats).toOption.bind fun h => (h.encode b!"text/html").toOption.bind fun code =>
    (h.decode (code ++ [1, 2, 3])).toOption.map fun r => (r, code.length)) = some ((b!"text/html", 9), 9) := by
  decide +kernel

/-- A codec without the end of the string (C40_missing). -/
example : ((HCodec.make id [(97, 1), (98, 2)]).toOption.map fun h => (h.encode b!"ab").toOption) = some none := by decide +kernel

/-- Two messages for a Processor (C60): several cookies and values, and a tab that the tester keeps. -/
def hdMessages : List Message :=
  [([(b!"cookie", b!"a=1; b=2"), (b!"x", [49, 0, 32, 50]), (b!":path", b!"/a")], List.reverse),
   ([(b!"cookie", b!"b=2;a=1"), (b!"x", [9, 49])], id)]

example : (∀ m ∈ hdMessages, (m.2 m.1).Perm m.1) ∧ (∀ m ∈ hdMessages, ∀ kv ∈ m.1, (∀ c ∈ kv.1, c < 256) ∧ ∀ c ∈ kv.2, c < 256) ∧
    NoCollision (hdMessages.map fun m => splitFromDict (m.2 m.1)) := by
  refine ⟨?_, by decide +kernel, by unfold NoCollision; decide +kernel⟩
  intro m hm
  simp only [hdMessages, List.mem_cons, List.not_mem_nil, or_false] at hm
  rcases hm with rfl | rfl
  · exact List.reverse_perm _
  · exact .refl _

/-- What is decompressed: the first message as the tester sees it, the second without the tab. -/
example : (match compressAll (fun _ t => t) defaultCfg (Enc.init defaultCfg) hdMessages with
    | (_, .error _) => none
    | (_, .ok fs) => (decompressAll defaultCfg (Dec.init defaultCfg) fs).toOption.map (·.2)) =
    some [[(b!":path", b!"/a"), (b!"x", [49, 0, 50]), (b!"cookie", b!"a=1;b=2")], [(b!"cookie", b!"b=2;a=1"), (b!"x", [49])]] := by
  decide +kernel

end Verif.Props
