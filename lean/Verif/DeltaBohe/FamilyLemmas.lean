import Verif.DeltaBohe.LimitLemmas
import Verif.DeltaBohe.ReceiveLemmas
/-
delta_bohe: sessions that can be continued as long as one likes.
-/
namespace Verif.DeltaBohe
open Verif Verif.Bits Verif.Bits.Spec Verif.Huff Verif.Huff.Spec Verif.Bohe

theorem Good.mono {U V : List Hdr} (hUV : ∀ kv ∈ U, kv ∈ V) {c : Codec} (h : Good U c) : Good V c :=
  ⟨h.inv, h.sized, fun kv hkv => hUV kv (h.sub kv hkv), fun k hk => by
    obtain ⟨kv, hkv, rfl⟩ := List.mem_map.1 (h.names k hk)
    exact List.mem_map.2 ⟨kv, hUV kv hkv, rfl⟩, h.next⟩

theorem encList_length {L : Libs} {k : Str} {xs : List Str} {es : List Hdr} (h : encList L k xs = .ok es) : es.length = xs.length :=
  (encList_ok h).length_eq.symm

/-- The number of codes of a message. -/
theorem sentList_length {L : Libs} : ∀ {hs : List Hdr} {es : List Hdr}, sentList L hs = .ok es →
    es.length = (hs.map fun kv => (Spec.parts kv.1 kv.2).length).sum := by
  intro hs
  induction hs with
  | nil => intro es h; cases h; rfl
  | cons p hs ih =>
    intro es h
    obtain ⟨k, v⟩ := p
    simp only [sentList, bind, Except.bind] at h
    cases h1 : encList L k (orderedParts k v) with
    | error x => rw [h1] at h; cases h
    | ok a =>
      rw [h1] at h
      simp only at h
      cases h2 : sentList L hs with
      | error x => rw [h2] at h; cases h
      | ok b =>
        rw [h2] at h
        cases h
        rw [List.length_append, encList_length h1, ih h2, (parts_perm k v).length_eq]
        rfl

theorem splitOn_ne (x : Nat) (v : Str) : splitOn x v ≠ [] := by
  cases v with
  | nil => simp [splitOn]
  | cons y v =>
    unfold splitOn
    split
    · simp
    · split <;> simp

theorem parts_pos (k v : Str) : 0 < (Spec.parts k v).length := by
  unfold Spec.parts
  split
  · rw [List.length_map]
    exact List.length_pos_iff.2 (splitOn_ne _ _)
  · simp

theorem news_le {c : Codec} (h : Inv c) {es : List Hdr} (hn : es.Nodup) : (news c es).length ≤ es.length :=
  (List.subperm_of_subset (news_nodup hn) (fun _ hx => news_sub hx)).length_le

/-- A message that is sent. -/
theorem Good.sends {L : Libs} {h : Huffman} {codes : List (List Bool)} (hk : Codes h codes) (h257 : codes.length = 257)
    {U : List Hdr} {c : Codec} (hg : Good U c) {m : Message} (ho : ∀ l, (m.ord l).Perm l) {es : List Hdr}
    (hes : sentList L m.headers = .ok es) (hn : es.Nodup) (hs : ∀ kv ∈ es, kv ∈ U) (hU : U.length ≤ 1024)
    (hfit : ∀ kv ∈ es, namesLen U + kv.2.length ≤ 65536) (hlt : c.nextLru < 2 ^ 16)
    (hb : ∀ kv ∈ es, (∀ x ∈ kv.1, x < 256) ∧ ∀ x ∈ kv.2, x < 256) :
    ∃ c' b, compress L h c m = .ok (c', b) ∧ makeOperations L m.ord c m.headers = .ok (c', instrs m.ord c m.headers es) ∧
      Made c es c' ∧ Good U c' := by
  obtain ⟨c', e⟩ := hg.total ho hes hn hs hU hfit
  obtain ⟨h1, h2, -⟩ := hg.made ho hes hn hs hU e
  obtain ⟨b, eb, -⟩ := wire_spec hk h257 (instrs_ok (headers := m.headers) hg.inv ho hn hg.next hlt hb)
  exact ⟨c', b, by simp only [compress, bind, Except.bind, e, eb, pure, Except.pure], e, h1, h2⟩

theorem compressAll_snoc {L : Libs} {h : Huffman} {ms : List Message} {m : Message} {c c1 c2 : Codec} {bs : List Str} {b : Str}
    (e1 : compressAll L h ms c = .ok (c1, bs)) (e2 : compress L h c1 m = .ok (c2, b)) :
    compressAll L h (ms ++ [m]) c = .ok (c2, bs ++ [b]) :=
  (compressAll_append ms [m]).2 ⟨c1, bs, [b], e1, by simp only [compressAll, bind, Except.bind, e2, pure, Except.pure], rfl⟩

/-! ### One path after the other -/

/-- A message with a path only. -/
def pathMsg (p : Str) : Message := ⟨[(b!":path", p)], id⟩

theorem path_sent (L : Libs) (p : Str) : sentList L [(b!":path", p)] = .ok [(b!":path", p)] := by
  have h1 : orderedParts b!":path" p = [p] := if_neg (by decide)
  have h2 : encodeField L b!":path" p = .ok p := by
    unfold encodeField
    rw [if_neg (by decide), if_neg (by decide), if_neg (by decide), if_neg (by decide), if_neg (by decide), if_neg (by decide),
      if_neg (by decide), if_neg (by decide), if_neg (by decide)]
  simp only [sentList, h1, encList, h2, bind, Except.bind, pure, Except.pure]
  rfl

theorem namesLen_paths (ps : List Str) : namesLen (defaultDict ++ ps.map fun p => (b!":path", p)) ≤ 664 := by
  unfold namesLen
  have h0 : (defaultDict.map (·.1)).dedup = defaultDict.map (·.1) := List.dedup_eq_self.2 (by decide +kernel)
  have h1 : ((defaultDict.map (·.1)).dedup.map List.length).sum = 664 := by
    rw [h0]
    decide +kernel
  rw [← h1]
  refine sum_le_of_subset (List.nodup_dedup _) ?_
  intro x hx
  rw [List.mem_dedup, List.map_append, List.mem_append] at hx
  rcases hx with hx | hx
  · exact hx
  · rw [List.map_map] at hx
    obtain ⟨p, -, rfl⟩ := List.mem_map.1 hx
    show b!":path" ∈ _
    decide +kernel

/-- The table fills up. -/
theorem fill {L : Libs} {h : Huffman} {codes : List (List Bool)} (hk : Codes h codes) (h257 : codes.length = 257) {kvs : List Hdr}
    (hp : kvs.Perm defaultDict) {c0 : Codec} (e0 : Codec.init kvs = .ok c0) (ps : List Str) (hn : ps.Nodup) (hd : b!"/" ∉ ps)
    (hl : ps.length ≤ 961) (hlen : ∀ p ∈ ps, p.length ≤ 64872) (hb : ∀ p ∈ ps, ∀ x ∈ p, x < 256) :
    ∃ c bs, compressAll L h (ps.map pathMsg) c0 = .ok (c, bs) ∧ Good (defaultDict ++ ps.map fun p => (b!":path", p)) c ∧
      c.numVals = 63 + ps.length ∧ c.nextLru = 63 + 2 * ps.length ∧
      c.lru.map (Option.map VE.kv) = ps.map (fun p => some (b!":path", p)) ∧
      (∀ kv, kv ∈ c.entries.map VE.kv ↔ kv ∈ defaultDict ∨ kv ∈ ps.map fun p => (b!":path", p)) ∧
      ∀ k, k ∈ c.keyMap.keys ↔ k ∈ defaultDict.map (·.1) := by
  induction ps using List.reverseRecOn with
  | nil =>
    obtain ⟨c', e', -, -, h3, h4, h5, h6, -, -, h9, -⟩ := init_spec hp
    rw [e0] at e'
    cases e'
    refine ⟨c0, [], rfl, init_good hp (by simp) e0, by rw [h6]; rfl, by rw [h5]; rfl, by rw [h4]; rfl, ?_, h9⟩
    intro kv
    rw [h3, hp.mem_iff]
    simp
  | append_singleton ps p ih =>
    have hnd := List.nodup_append.1 hn
    simp only [List.length_append, List.length_cons, List.length_nil] at hl
    obtain ⟨c, bs, e, hg, hnum, hnext, hlru, hkvs, hkeys⟩ := ih hnd.1 (fun hm => hd (by simp [hm])) (by omega)
      (fun q hq => hlen q (by simp [hq])) (fun q hq => hb q (by simp [hq]))
    have hnew : (b!":path", p) ∉ c.entries.map VE.kv := by
      rw [hkvs]
      rintro (hm | hm)
      · have : ∀ kv ∈ defaultDict, kv.1 = b!":path" → kv.2 = b!"/" := by decide +kernel
        have := this _ hm rfl
        simp only at this
        exact hd (by simp [this])
      · obtain ⟨q, hq, e⟩ := List.mem_map.1 hm
        cases e
        exact hnd.2.2 p hq p (by simp) rfl
    have hg' := hg.mono (V := defaultDict ++ (ps ++ [p]).map fun p => (b!":path", p)) (fun kv hkv => by
      rw [List.map_append, ← List.append_assoc]; exact List.mem_append_left _ hkv)
    have hes := path_sent L p
    obtain ⟨c', b, ec, em, hmade, hg2⟩ := hg'.sends (L := L) hk h257 (m := pathMsg p) (fun l => List.Perm.refl _) hes (by simp) (by
      intro kv hkv
      rw [List.mem_singleton] at hkv
      subst hkv
      simp) (by
      rw [List.length_append, List.length_map, List.length_append]
      have : defaultDict.length = 63 := by decide
      simp only [List.length_cons, List.length_nil]
      omega) (by
      intro kv hkv
      rw [List.mem_singleton] at hkv
      subst hkv
      have h1 := namesLen_paths (ps ++ [p])
      have h2 := hlen p (by simp)
      show _ + p.length ≤ _
      omega) (by omega) (by
      intro kv hkv
      rw [List.mem_singleton] at hkv
      subst hkv
      exact ⟨(by decide : ∀ x ∈ b!":path", x < 256), hb p (by simp)⟩)
    have hnews : (news c [(b!":path", p)]).length = 1 := by
      have h1 : (b!":path", p) ∈ news c [(b!":path", p)] := (mem_news hg.inv.core _ _).2 ⟨by simp, hnew⟩
      have h2 := news_le hg.inv (es := [(b!":path", p)]) (by simp)
      have h3 := List.length_pos_of_mem h1
      simp only [List.length_cons, List.length_nil] at h2
      omega
    refine ⟨c', bs ++ [b], by rw [List.map_append]; exact compressAll_snoc e ec, hg2, ?_, ?_, ?_, ?_, ?_⟩
    · rw [hmade.num, hnews, hnum]
      simp only [List.length_append, List.length_cons, List.length_nil]
      push_cast
      omega
    · rw [hmade.next, hnews, hnext]
      simp only [List.length_append, List.length_cons, List.length_nil]
      omega
    · rw [single_order (fun l => List.Perm.refl _) hg.inv hes hnew (by unfold maxVals; omega) em, hlru]
      simp
    · intro kv
      rw [hmade.kvs, hkvs, List.map_append, List.mem_append, or_assoc]
      rfl
    · intro k
      rw [hmade.names, hkeys]
      simp only [List.map_cons, List.map_nil, List.mem_singleton, or_iff_left_iff_imp]
      rintro rfl
      decide +kernel

/-! ### The same message again and again -/

theorem empty_ok : InstrsOk {} := ⟨by simp, by simp, by simp⟩

/-- A message that was sent can be sent again and again. -/
theorem repeats {L : Libs} {h : Huffman} {codes : List (List Bool)} (hk : Codes h codes) (h257 : codes.length = 257)
    {U : List Hdr} (hU : U.length ≤ 1024) {m : Message} (ho : ∀ l, (m.ord l).Perm l) {es : List Hdr}
    (hes : sentList L m.headers = .ok es) (hn : es.Nodup) (hs : ∀ kv ∈ es, kv ∈ U) (n : Nat) : ∀ {c : Codec} (_ : Good U c)
    (_ : ∀ kv, (∃ e ∈ c.entries, e.gen.isSome ∧ e.kv = kv) ↔ kv ∈ es),
    ∃ c' bs, compressAll L h (List.replicate n m) c = .ok (c', bs) ∧ Good U c' := by
  induction n with
  | zero => exact fun hg _ => ⟨_, [], rfl, hg⟩
  | succ n ih =>
    intro c hg hgr
    obtain ⟨i1, i2⟩ := instrs_again hg.inv ho (headers := m.headers) hgr
    have hroom := hg.room hn hs
    rcases make_spec ho hg.inv hes hn (by unfold maxVals; omega) with ⟨-, names, hne, hsub, -⟩ | ⟨c', e, hmade⟩
    · rw [i2] at hsub
      exact absurd (List.sublist_nil.1 hsub) hne
    · obtain ⟨-, hg', -⟩ := hg.made ho hes hn hs hU e
      obtain ⟨b, eb, -⟩ := wire_spec hk h257 empty_ok
      rw [i1] at e
      obtain ⟨c2, bs, e2, hg2⟩ := ih hg' hmade.group
      refine ⟨c2, b :: bs, ?_, hg2⟩
      simp only [List.replicate_succ, compressAll, compress, bind, Except.bind, e, eb, e2, pure, Except.pure]

/-- Indices grow with each message that says something. -/
theorem session_next {L : Libs} {h : Huffman} {U : List Hdr} (hU : U.length ≤ 1024) (ms : List Message) : ∀ {c c' : Codec} (_ : Good U c)
    (_ : ∀ m ∈ ms, Valid L U m) (_ : ∀ m ∈ ms, m.headers ≠ []) {bs : List Str} (_ : compressAll L h ms c = .ok (c', bs)),
    c.nextLru + ms.length ≤ c'.nextLru := by
  induction ms with
  | nil => intro c c' hg _ _ bs e; cases e; exact le_rfl
  | cons m ms ih =>
    intro c c' hg hv hne bs e
    obtain ⟨c1, bs1, bs2, e1, e2, -⟩ := (compressAll_append [m] ms).1 e
    obtain ⟨b, e1, -⟩ := compressAll_one e1
    obtain ⟨es, hes, -, -, hmade, hg1⟩ := hg.step hU (hv m (by simp)) e1
    have h1 := ih hg1 (fun x hx => hv x (by simp [hx])) (fun x hx => hne x (by simp [hx])) e2
    have h2 := hmade.next
    have h3 := sentList_length hes
    have h4 : 0 < es.length := by
      rw [h3]
      cases hh : m.headers with
      | nil => exact absurd hh (hne m (by simp))
      | cons p hs =>
        have := parts_pos p.1 p.2
        simp only [List.map_cons, List.sum_cons]
        omega
    simp only [List.length_cons]
    omega

/-- Names stay known. -/
theorem session_known {L : Libs} {h : Huffman} {U : List Hdr} (hU : U.length ≤ 1024) (ms : List Message) : ∀ {c c' : Codec} (_ : Good U c)
    (_ : ∀ m ∈ ms, Valid L U m) {bs : List Str} (_ : compressAll L h ms c = .ok (c', bs)),
    (∀ k ∈ c.keyMap.keys, k ∈ c'.keyMap.keys) ∧ c.stateSize ≤ c'.stateSize := by
  induction ms with
  | nil => intro c c' hg _ bs e; cases e; exact ⟨fun _ h => h, le_rfl⟩
  | cons m ms ih =>
    intro c c' hg hv bs e
    obtain ⟨c1, bs1, bs2, e1, e2, -⟩ := (compressAll_append [m] ms).1 e
    obtain ⟨b, e1, -⟩ := compressAll_one e1
    obtain ⟨es, hes, -, -, hmade, hg1⟩ := hg.step hU (hv m (by simp)) e1
    obtain ⟨h1, h2⟩ := ih hg1 (fun x hx => hv x (by simp [hx])) e2
    exact ⟨fun k hk => h1 k ((hmade.names k).2 (.inl hk)), le_trans hmade.size h2⟩

/-- A session in which everything fits. -/
theorem session_total {L : Libs} {h : Huffman} {codes : List (List Bool)} (hk : Codes h codes) (h257 : codes.length = 257)
    {U : List Hdr} (hU : U.length ≤ 1024) (hfit : ∀ kv ∈ U, namesLen U + kv.2.length ≤ 65536)
    (hb : ∀ kv ∈ U, (∀ x ∈ kv.1, x < 256) ∧ ∀ x ∈ kv.2, x < 256) (ms : List Message) : ∀ {c : Codec} (_ : Good U c)
    (_ : ∀ m ∈ ms, Valid L U m ∧ Spec.Encodable L m.headers)
    (_ : c.nextLru + 2 * (ms.map fun m => (m.headers.map fun kv => (Spec.parts kv.1 kv.2).length).sum).sum < 2 ^ 16),
    ∃ c' bs, compressAll L h ms c = .ok (c', bs) := by
  induction ms with
  | nil => exact fun _ _ _ => ⟨_, [], rfl⟩
  | cons m ms ih =>
    intro c hg hv hlt
    obtain ⟨hvm, hem⟩ := hv m (by simp)
    obtain ⟨es, hes⟩ := sentList_total hem
    have hn := sentList_nodup hes hvm.names hvm.crumbs
    have hs : ∀ kv ∈ es, kv ∈ U := fun kv hkv => hvm.sub kv ((sentList_says hes kv).1 hkv)
    simp only [List.map_cons, List.sum_cons] at hlt
    have hle := sentList_length hes
    have hnl := news_le hg.inv hn
    obtain ⟨c1, b, e1, -, hmade, hg1⟩ := hg.sends hk h257 hvm.ord hes hn hs hU (fun kv hkv => hfit kv (hs kv hkv)) (by omega)
      (fun kv hkv => hb kv (hs kv hkv))
    have hnext := hmade.next
    obtain ⟨c2, bs, e2⟩ := ih hg1 (fun x hx => hv x (by simp [hx])) (by omega)
    exact ⟨c2, b :: bs, by simp only [compressAll, bind, Except.bind, e1, e2, pure, Except.pure]⟩

end Verif.DeltaBohe
