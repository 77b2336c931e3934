import Verif.DeltaBohe.ReadLemmas
import Verif.Props.DeltaBohe
/-
Property C110: what a receiver of compressor/delta_bohe reads from the bytes.
-/
namespace Verif.Props
open Verif Verif.Bits Verif.Bits.Spec Verif.Huff Verif.Huff.Spec Verif.Bohe Verif.DeltaBohe

/-- A message that C110 is about: at most 128 headers out of `U`, none under a name that bohe encodes, all of them bytes. -/
structure Plain110 (U : List Hdr) (m : DeltaBohe.Message) : Prop where
  ord : ∀ l, (m.ord l).Perm l
  names : (m.headers.map (·.1)).Nodup
  sub : ∀ kv ∈ m.headers, kv ∈ U
  plain : ∀ kv ∈ m.headers, kv.1 ∉ encoderNames
  bytes : ∀ kv ∈ m.headers, (∀ x ∈ kv.1, x < 256) ∧ ∀ x ∈ kv.2, x < 256
  few : m.headers.length ≤ 128

theorem encodeField_plain (L : Libs) {k : Str} (h : k ∉ encoderNames) (v : Str) : encodeField L k v = .ok v := by
  unfold encodeField
  have hc : ∀ l : List Str, (∀ x ∈ l, x ∈ encoderNames) → k ∉ l := fun l hl hk => h (hl k hk)
  have he : ∀ x : Str, x ∈ encoderNames → k ≠ x := fun x hx e => h (e ▸ hx)
  rw [if_neg (hc _ (by decide)), if_neg (hc _ (by decide)), if_neg (he _ (by decide)), if_neg (he _ (by decide)), if_neg (he _ (by decide)),
    if_neg (he _ (by decide)), if_neg (hc _ (by decide)), if_neg (hc _ (by decide)), if_neg (he _ (by decide))]

theorem cookie_encoded : b!"cookie" ∈ encoderNames := by decide

theorem sentList_plain (L : Libs) : ∀ (hs : List Hdr), (∀ kv ∈ hs, kv.1 ∉ encoderNames) → sentList L hs = .ok hs := by
  intro hs
  induction hs with
  | nil => intro _; rfl
  | cons kv hs ih =>
    intro h
    obtain ⟨k, v⟩ := kv
    have hk := h (k, v) (by simp)
    have h1 : orderedParts k v = [v] := if_neg fun (e : k = b!"cookie") => hk (by rw [e]; exact cookie_encoded)
    simp only [sentList, h1, encList, encodeField_plain L hk, bind, Except.bind, pure, Except.pure, ih fun kv hkv => h kv (by simp [hkv])]
    rfl

/-- Sender and receiver between two messages. -/
structure Heard110 (U : List Hdr) (c d : DeltaBohe.Codec) : Prop where
  good : Good U c
  sim : Sim (fun _ => 0) c d
  few : (c.entries.filter fun e => e.gen.isSome).length ≤ 128

theorem step110 {L : Libs} {h : Huffman} {codes : List (List Bool)} (hk : Codes h codes) (h257 : codes.length = 257) {U : List Hdr}
    (hU : U.length ≤ 1024) {c d c' : DeltaBohe.Codec} (H : Heard110 U c d) {m : DeltaBohe.Message} (hm : Plain110 U m) {b : Str}
    (e : DeltaBohe.compress L h c m = .ok (c', b)) (hfit : b.length ≤ 65536) :
    ∃ d' x, hear h d b = .ok (d', x) ∧ Heard110 U c' d' ∧ ∀ k v, Dict.get? x k = some v ↔ (k, v) ∈ m.headers := by
  obtain ⟨g, e1, e2⟩ := DeltaBohe.compress_ok e
  have hes := sentList_plain L m.headers hm.plain
  have hn : m.headers.Nodup := List.Nodup.of_map _ hm.names
  obtain ⟨hmade, hgood, hgi⟩ := H.good.made hm.ord hes hn hm.sub hU e1
  obtain ⟨-, -, d2, f4, s2, hc2, hnp⟩ := sim_message H.sim H.good.inv.core e1
  have hclone : ∀ x ∈ g.clone, (∀ a ∈ x.2.1, a < 256) ∧ x.2.2 = true := by
    intro x hx
    rw [hgi] at hx
    obtain ⟨kv, hkv, ex⟩ := List.mem_filterMap.1 hx
    unfold cloneOf at ex
    split at ex
    · cases ex
    · cases hki : keyOf c kv.1 with
      | none => rw [hki] at ex; cases ex
      | some i =>
        rw [hki] at ex
        cases ex
        exact ⟨(hm.bytes kv hkv).2, decide_eq_true (hm.plain kv hkv)⟩
  have hkvsto : ∀ x ∈ g.kvsto, ((∀ a ∈ x.1, a < 256) ∧ ∀ a ∈ x.2.1, a < 256) ∧ x.2.2 = true := by
    intro x hx
    rw [hgi] at hx
    obtain ⟨kv, hkv, ex⟩ := List.mem_filterMap.1 hx
    unfold kvstoOf at ex
    split at ex
    · cases ex
      exact ⟨hm.bytes kv hkv, decide_eq_true (hm.plain kv hkv)⟩
    · cases ex
  have hok := instrs_sent hk h257 (fun x hx => (hclone x hx).1) (fun x hx => (hkvsto x hx).1) e2
  have hl1 : g.clone.length ≤ 256 := by
    rw [hgi]
    have := List.length_filterMap_le (cloneOf c) m.headers
    have := hm.few
    simp only [instrs]
    omega
  have hl2 : g.kvsto.length ≤ 256 := by
    rw [hgi]
    have := List.length_filterMap_le (kvstoOf c) m.headers
    have := hm.few
    simp only [instrs]
    omega
  have hl3 : g.toggl.length ≤ 256 := by
    rw [hgi]
    have h1 := List.length_filterMap_le (toggleOf c) m.headers
    have h2 := hm.few
    have h3 : (turnOffs m.ord (mapE (touch (gen c) m.headers) (opened c m.headers))).length ≤ (c.entries.filter fun e => e.gen.isSome).length := by
      unfold turnOffs
      rw [List.length_map]
      refine (List.length_filter_le _ _).trans ?_
      rw [(hm.ord _).length_eq, entries_mapE, opened_entries, List.filter_map, List.length_map]
      apply le_of_eq
      congr 2
      funext e
      exact touch_isSome _ _ _
    have := H.few
    simp only [instrs, List.length_append]
    omega
  have hread := wire_read hk h257 hok (fun x hx => (hclone x hx).2) (fun x hx => (hkvsto x hx).2) hl3 hl1 hl2 e2 hfit
  refine ⟨(generate d2).1, (generate d2).2, by rw [hear_eq hread, f4]; rfl, ⟨hgood, s2, ?_⟩, ?_⟩
  · have hnd : ((c'.entries.filter fun e => e.gen.isSome).map VE.kv).Nodup := (List.filter_sublist.map VE.kv).nodup hgood.inv.core.kv
    have : ((c'.entries.filter fun e => e.gen.isSome).map VE.kv).length ≤ m.headers.length := by
      refine (List.subperm_of_subset hnd ?_).length_le
      intro kv hkv
      obtain ⟨e, he, rfl⟩ := List.mem_map.1 hkv
      obtain ⟨h1, h2⟩ := List.mem_filter.1 he
      exact (hmade.group _).1 ⟨e, h1, h2, rfl⟩
    rw [List.length_map] at this
    exact this.trans hm.few
  · intro k v
    have hgr : ∀ kv, (∃ e ∈ d2.entries, e.gen.isSome ∧ e.kv = kv) ↔ kv ∈ m.headers := by
      intro kv
      rw [← adjust_group hc2 hnp kv]
      show (∃ e ∈ (generate d2).1.entries, _) ↔ _
      rw [s2.inGroup kv]
      exact hmade.group kv
    obtain ⟨l, hl, eg⟩ := generate_get hc2 hn hgr k
    have hmem : ∀ x, x ∈ l ↔ (k, x) ∈ m.headers := by
      intro x
      rw [hl.mem_iff, List.mem_map]
      constructor
      · rintro ⟨kv, hkv, rfl⟩
        obtain ⟨h1, h2⟩ := List.mem_filter.1 hkv
        rw [decide_eq_true_eq] at h2
        rw [← h2]
        exact h1
      · exact fun hx => ⟨(k, x), List.mem_filter.2 ⟨hx, by simp⟩, rfl⟩
    have hnd : l.Nodup := by
      refine hl.nodup_iff.2 ?_
      rw [List.nodup_map_iff_inj_on (hn.filter _)]
      intro x hx y hy hxy
      have h1 := (List.mem_filter.1 hx).2
      have h2 := (List.mem_filter.1 hy).2
      rw [decide_eq_true_eq] at h1 h2
      exact Prod.ext (h1.trans h2.symm) hxy
    have hone : ∀ x y, x ∈ l → y ∈ l → x = y := by
      intro x y hx hy
      have := List.inj_on_of_nodup_map hm.names ((hmem x).1 hx) ((hmem y).1 hy) rfl
      cases this
      rfl
    have hcases : l = [] ∨ ∃ x, l = [x] := by
      rcases l with - | ⟨a, - | ⟨b, l⟩⟩
      · exact Or.inl rfl
      · exact Or.inr ⟨a, rfl⟩
      · have := hone a b (by simp) (by simp)
        subst this
        simp at hnd
    by_cases hck : k = b!"cookie"
    · have hno : ∀ x, (k, x) ∉ m.headers := fun x hx => hm.plain _ hx (by rw [hck]; exact cookie_encoded)
      have : l = [] := by
        rw [List.eq_nil_iff_forall_not_mem]
        exact fun x hx => hno x ((hmem x).1 hx)
      rw [eg, this, if_pos hck]
      simp [DeltaBohe.Spec.joined, hno]
    · rw [eg, if_neg hck]
      rw [← hmem v]
      rcases hcases with rfl | ⟨x, rfl⟩
      · simp [DeltaBohe.Spec.joined]
      · simp [DeltaBohe.Spec.joined, eq_comm]

theorem session110 {L : Libs} {h : Huffman} {codes : List (List Bool)} (hk : Codes h codes) (h257 : codes.length = 257) {U : List Hdr}
    (hU : U.length ≤ 1024) : ∀ (ms : List DeltaBohe.Message) {c d c' : DeltaBohe.Codec} {bs : List Str}, Heard110 U c d →
    (∀ m ∈ ms, Plain110 U m) → DeltaBohe.compressAll L h ms c = .ok (c', bs) → (∀ b ∈ bs, b.length ≤ 65536) →
    ∃ d' xs, hearAll h bs d = .ok (d', xs) ∧ List.Forall₂ (fun m x => ∀ k v, Dict.get? x k = some v ↔ (k, v) ∈ m.headers) ms xs := by
  intro ms
  induction ms with
  | nil => intro c d c' bs _ _ e _; cases e; exact ⟨d, [], rfl, .nil⟩
  | cons m ms ih =>
    intro c d c' bs H hm e hfit
    simp only [DeltaBohe.compressAll, bind, Except.bind] at e
    cases e1 : DeltaBohe.compress L h c m with
    | error x => rw [e1] at e; cases e
    | ok r =>
      obtain ⟨c1, b⟩ := r
      rw [e1] at e
      dsimp only at e
      cases e2 : DeltaBohe.compressAll L h ms c1 with
      | error x => rw [e2] at e; cases e
      | ok r =>
        obtain ⟨c2, bs'⟩ := r
        rw [e2] at e
        cases e
        obtain ⟨d1, x, f1, H1, hx⟩ := step110 hk h257 hU H (hm m (by simp)) e1 (hfit b (by simp))
        obtain ⟨d2, xs, f2, hxs⟩ := ih H1 (fun m' hm' => hm m' (by simp [hm'])) e2 (fun b' hb' => hfit b' (by simp [hb']))
        exact ⟨d2, x :: xs, by simp only [hearAll, bind, Except.bind, f1, f2, pure, Except.pure], .cons hx hxs⟩

/-- C110, for sessions with at most 1024 different headers (the initial ones included), none of them under a name that bohe encodes, at most 128 in a message, and
messages of at most 65536 bytes.  A fresh receiver that reads the bytes hears the headers of every message. -/
theorem C110_partial (L : Libs) (h : Huffman) (hc : IsCoder1 h) (c0 : DeltaBohe.Codec) (h0 : Fresh80 c0) (U : List Hdr) (hU : Universe U)
    (ms : List DeltaBohe.Message) (hm : ∀ m ∈ ms, Plain110 U m) (c : DeltaBohe.Codec) (bs : List Str)
    (e : DeltaBohe.compressAll L h ms c0 = .ok (c, bs)) (hfit : ∀ b ∈ bs, b.length ≤ 65536) :
    ∃ d xs, hearAll h bs c0 = .ok (d, xs) ∧ List.Forall₂ (fun m x => ∀ k v, Dict.get? x k = some v ↔ (k, v) ∈ m.headers) ms xs := by
  obtain ⟨codes, hk, h257⟩ := hc.codes
  obtain ⟨kvs, hp, e0⟩ := h0
  obtain ⟨c0', e0', hi, -, -, -, -, -, -, hgen, -⟩ := init_spec hp
  rw [e0] at e0'
  cases e0'
  refine session110 hk h257 hU.2 ms ⟨init_good hp hU.1 e0, Sim.refl c0, ?_⟩ hm e hfit
  have : (c0.entries.filter fun e => e.gen.isSome) = [] := by
    rw [List.filter_eq_nil_iff]
    intro e he
    simp [hgen e he]
  rw [this]
  simp

/-- A session at both ends with a flat code: the numbers of bytes and what is heard. -/
def run110 (ms : List DeltaBohe.Message) : Py (List Nat × List (Dict Str Str)) := do
  let h ← Delta1.huffman ((List.range 257).map fun i => (i, 1))
  let c ← DeltaBohe.Codec.init defaultDict
  let (_, bs) ← DeltaBohe.compressAll lib80 h ms c
  let (_, xs) ← hearAll h bs c
  pure (bs.map List.length, xs)

/-- The hypotheses of C110, -/
example : ∀ m ∈ [DeltaBohe.Message.mk [(b!"x", b!"1"), (b!":path", b!"/a")] id, ⟨[(b!":path", b!"/a")], id⟩, ⟨[(b!":path", b!"/b"), (b!"x", b!"1")], id⟩],
    Plain110 (defaultDict ++ [(b!"x", b!"1"), (b!":path", b!"/a"), (b!":path", b!"/b")]) m := by
  intro m hm
  simp only [List.mem_cons, List.not_mem_nil, or_false] at hm
  rcases hm with rfl | rfl | rfl <;> exact ⟨fun l => .refl _, by decide, by decide +kernel, by decide, by decide, by decide⟩

/-- and the session. -/
example : run110 [⟨[(b!"x", b!"1"), (b!":path", b!"/a")], id⟩, ⟨[(b!":path", b!"/a")], id⟩, ⟨[(b!":path", b!"/b"), (b!"x", b!"1")], id⟩] =
    .ok ([21, 12, 21], [[(b!":path", b!"/a"), (b!"x", b!"1")], [(b!":path", b!"/a")], [(b!"x", b!"1"), (b!":path", b!"/b")]]) := by
  decide +kernel

/-- C110.  A value under a name that bohe encodes is taken for Huffman code: the end of the message is swallowed, and a header is lost. -/
theorem C110_false : (do
    let c ← DeltaBohe.Codec.init defaultDict
    let r ← sendAll lib80 [⟨[(b!"x", b!"1"), (b!":method", b!"post")], id⟩] c
    (receiveAll r.2 c).map Prod.snd) = .ok [[(b!":method", [2]), (b!"x", b!"1")]] ∧
    run110 [⟨[(b!"x", b!"1"), (b!":method", b!"post")], id⟩] = .ok ([19], [[(b!":method", [4, 6, 2, 120])]]) := by
  decide +kernel

/-- The dictionary with two items exchanged. -/
def otherDict : List Hdr := (b!"date", b!"") :: (b!":path", b!"/") :: (b!":method", b!"get") :: (b!":scheme", b!"https") :: defaultDict.drop 4

theorem other_perm : otherDict.Perm defaultDict := by decide +kernel

/-- What is sent in `C110_order`. -/
def g110 : Instrs := { toggl := [2] }

theorem sent110 : (do
    let c ← DeltaBohe.Codec.init defaultDict
    let r ← makeOperations lib80 id c [(b!":scheme", b!"https")]
    pure r.2) = .ok g110 := by decide +kernel

theorem heard110 : (do
    let d ← DeltaBohe.Codec.init otherDict
    let d ← execOps d g110
    pure (generate d).2) = .ok [(b!":path", b!"/")] := by decide +kernel

theorem wire110 {h : Huffman} {codes : List (List Bool)} (hk : Codes h codes) (h257 : codes.length = 257) :
    ∃ b, DeltaBohe.opsToRealOps h g110 = .ok b ∧ DeltaBohe.realOpsToOps h b = .ok g110.ops := by
  have hok : InstrsOk g110 := ⟨by decide, by decide, by decide⟩
  obtain ⟨b, e, -, -, hform⟩ := DeltaBohe.wire_spec hk h257 hok
  have hr : Delta1.toggleRanges g110.toggl = { ot := [2], otr := [] } := by decide
  have hl : (payloadW codes g110).length = 32 := by
    simp only [payloadW, hr]
    simp [blockW, opW, g110]
  refine ⟨b, e, wire_read hk h257 hok (by decide) (by decide) (by decide) (by decide) (by decide) e ?_⟩
  rw [hform (by omega), Delta2.pack_length, List.length_append, headW_len, hl]
  decide

/-- C110.  Sender and receiver must iterate over the initial dictionary in the same order: otherwise a receiver hears `:path: /` for `:scheme: https`. -/
theorem C110_order (L : Libs) (h : Huffman) (hc : IsCoder1 h) : ∃ c0 d0 c b d, Fresh80 c0 ∧ Fresh80 d0 ∧
    DeltaBohe.compress L h c0 ⟨[(b!":scheme", b!"https")], id⟩ = .ok (c, b) ∧ hear h d0 b = .ok (d, [(b!":path", b!"/")]) := by
  obtain ⟨codes, hk, h257⟩ := hc.codes
  obtain ⟨c0, e0⟩ : ∃ c0, DeltaBohe.Codec.init defaultDict = .ok c0 := by obtain ⟨c, e, -⟩ := init_spec (.refl defaultDict); exact ⟨c, e⟩
  obtain ⟨d0, f0⟩ : ∃ d0, DeltaBohe.Codec.init otherDict = .ok d0 := by obtain ⟨c, e, -⟩ := init_spec other_perm; exact ⟨c, e⟩
  obtain ⟨b, eb, er⟩ := wire110 hk h257
  have es := sent110
  rw [e0] at es
  have hL : makeOperations L id c0 [(b!":scheme", b!"https")] = makeOperations lib80 id c0 [(b!":scheme", b!"https")] := by
    have hp : b!":scheme" ∉ encoderNames := by decide
    simp only [makeOperations, headersLoop, if_neg (show b!":scheme" ≠ b!"cookie" by decide), encodeField_plain _ hp]
  simp only [bind, Except.bind] at es
  cases e1 : makeOperations lib80 id c0 [(b!":scheme", b!"https")] with
  | error x => rw [e1] at es; cases es
  | ok r =>
    obtain ⟨c, g⟩ := r
    rw [e1] at es
    simp only [pure, Except.pure, Except.ok.injEq] at es
    subst es
    have fs := heard110
    rw [f0] at fs
    simp only [bind, Except.bind] at fs
    cases f1 : execOps d0 g110 with
    | error x => rw [f1] at fs; cases fs
    | ok d =>
      rw [f1] at fs
      simp only [pure, Except.pure, Except.ok.injEq] at fs
      refine ⟨c0, d0, c, b, (generate d).1, ⟨_, .refl _, e0⟩, ⟨_, other_perm, f0⟩, ?_, ?_⟩
      · simp only [DeltaBohe.compress, bind, Except.bind, hL, e1, eb, pure, Except.pure]
      · rw [hear_eq er, f1, ← fs]
        rfl

end Verif.Props
