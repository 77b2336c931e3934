import Verif.Delta2.OwnGroup
import Verif.Props.Delta2Table
import Verif.Props.Delta2Size
/-
Property theorems about the header group of a host after one of its messages, in delta2 (C142).
-/
namespace Verif.Props
open Verif Verif.Huff Verif.Delta2 Verif.Lib Verif.Lib.Spec

/-! ### C142 -/

theorem lookup_mem {st : Storage} {a b m : Int} (h : StorageOk st a b m) {i : Int} {e : Entry} (he : lookupFromIdx st i = .ok e) :
    e ∈ st.static.ring ++ st.lru.ring ∧ e.seq = i := by
  unfold lookupFromIdx at he
  rw [List.mem_append]
  split at he
  · obtain ⟨h1, h2⟩ := (lookup_iff h.staticRing _ _).1 he
    exact ⟨.inl h1, h2⟩
  · obtain ⟨h1, h2⟩ := (lookup_iff h.ring _ _).1 he
    exact ⟨.inr h1, h2⟩

/-- The operations made by `compress`. -/
theorem compress_ops {u : Setup} {c : Compressor} (hk : HostsOk c) {m : Delta2.Message} {c' : Compressor} {blob : Str}
    (hc : compress u m.orders c m.headers m.host = .ok (c', blob)) :
    ∃ gs, makeOperations u.cfg m.orders c.codec m.headers (groupOf u c m.host).2 = .ok (c'.codec, gs) := by
  obtain ⟨_, k2, _⟩ := groupOf_spec u hk m.host
  generalize hg : groupOf u c m.host = r at k2 ⊢
  simp only [compress, hg, k2, bind, Except.bind, pure, Except.pure] at hc
  split at hc
  · cases hc
  · rename_i q hq
    obtain ⟨s1, gs⟩ := q
    simp only at hc
    split at hc
    · cases hc
    · cases hc
      exact ⟨gs, hq⟩

/-- C142, with `only_etoggles`, `hg_adjust` and `implicit_hg_add` off, as by default, and whatever was sent before: after a message the
group of its host has exactly those headers of the message that were in the tables before it and still are, each by one index. -/
theorem C142_group (u : Setup) (hu : Processor u) (he : u.cfg.onlyEtoggles = false) (hadj : u.cfg.hgAdjust = false)
    (himp : u.cfg.implicitAdd = false) (c0 : Compressor) (d : Codec) (hf : Fresh u c0 d) (before : List Delta2.Message)
    (hb : ∀ m ∈ before, MessageOk m) (c : Compressor) (blobs : List Str) (hc : compressAll u before c0 = .ok (c, blobs))
    (m : Delta2.Message) (hm : MessageOk m) (c' : Compressor) (blob : Str)
    (hx : compress u m.orders c m.headers m.host = .ok (c', blob)) :
    ∃ gone kept added : List Entry, c.codec.storage.lru.ring = gone ++ kept ∧ c'.codec.storage.lru.ring = kept ++ added ∧
      (∀ x, (∃ i, GroupAt c'.codec (groupOf u c m.host).2 i x) ↔
        Sends m.headers x ∧ ∃ e ∈ c.codec.storage.static.ring ++ kept, (e.kv.key, e.kv.val) = x) ∧
      ∀ i j x, GroupAt c'.codec (groupOf u c m.host).2 i x → GroupAt c'.codec (groupOf u c m.host).2 j x → i = j := by
  obtain ⟨h1, h2, _⟩ := reach_ok hu hf before hb hc
  have hnd := C137_once u hu hadj c0 d hf before hb c blobs hc
  obtain ⟨h1', _⟩ := compress_step hu h1 h2 hm hx
  obtain ⟨gs, hgs⟩ := compress_ops h2 hx
  obtain ⟨gone, kept, added, q1, q2, q3, q4, q5, q6⟩ := message_group (processor_ok hu) he hadj himp hm.orders h1 m.headers hm.bytes _ hgs
  generalize (groupOf u c m.host).2 = gid at hgs q4 q5 q6 ⊢
  -- an entry of the group is the same before and after
  have hsame : ∀ i ∈ c'.codec.group gid, ∃ e ∈ c.codec.storage.static.ring ++ kept, lookupFromIdx c.codec.storage i = .ok e ∧
      lookupFromIdx c'.codec.storage i = .ok e := by
    intro i hi
    obtain ⟨hl, _, hgone⟩ := q5 i hi
    obtain ⟨e, hle⟩ := lookup_live h1.storage hl
    rcases hl with ⟨h0, hlt⟩ | ⟨e', he', rfl⟩
    · have hlen : i < c.codec.storage.static.ring.length := by rw [h1.storage.len]; exact hlt
      refine ⟨e, ?_, hle, by rw [lookup_same_static q3 hlen]; exact hle⟩
      unfold lookupFromIdx at hle
      rw [if_pos hlen] at hle
      exact List.mem_append_left _ ((lookup_iff h1.storage.staticRing _ _).1 hle).1
    · have hk : e' ∈ kept := by
        rw [q1, List.mem_append] at he'
        rcases he' with he' | he'
        · exact absurd rfl (hgone e' he')
        · exact he'
      refine ⟨e', List.mem_append_right _ hk, lookup_ring h1.storage he', lookup_ring h1'.storage ?_⟩
      rw [q2]
      exact List.mem_append_left _ hk
  refine ⟨gone, kept, added, q1, q2, fun x => ⟨?_, ?_⟩, ?_⟩
  · rintro ⟨i, hi, e, hle, rfl⟩
    obtain ⟨e', hm', l1, l2⟩ := hsame i hi
    rw [hle] at l2
    cases l2
    refine ⟨sends_iff.2 ?_, e, hm', rfl⟩
    have := (q5 i hi).2.1
    rwa [kvAt_ok l1] at this
  · rintro ⟨hs, e, hek, rfl⟩
    have hin : InTable c.codec.storage (e.kv.key, e.kv.val) := by
      refine ⟨e, ?_, rfl⟩
      rw [q1]
      simp only [List.mem_append] at hek ⊢
      tauto
    obtain ⟨i, hl, hiv, hi | ⟨e', he', rfl⟩⟩ := q6 _ (sends_iff.1 hs) hin
    · obtain ⟨e'', _, l1, l2⟩ := hsame i hi
      refine ⟨i, hi, e'', l2, ?_⟩
      rw [← hiv, kvAt_ok l1]
    · exfalso
      have hl' := lookup_ring h1.storage (show e' ∈ c.codec.storage.lru.ring by rw [q1]; exact List.mem_append_left _ he')
      rw [kvAt_ok hl'] at hiv
      rw [q1] at hnd
      have hp : (entryPairs (gone ++ (c.codec.storage.static.ring ++ kept))).Nodup := by
        refine (List.Perm.nodup_iff ?_).1 hnd
        refine List.Perm.map _ ?_
        rw [← List.append_assoc, ← List.append_assoc]
        exact List.Perm.append_right _ List.perm_append_comm
      rw [entryPairs, List.map_append] at hp
      rw [List.nodup_append] at hp
      exact hp.2.2 _ (List.mem_map.2 ⟨e', he', rfl⟩) _ (List.mem_map.2 ⟨e, hek, rfl⟩) hiv
  · rintro i j x ⟨hi, e1, a1, rfl⟩ ⟨hj, e2, b1, hx2⟩
    obtain ⟨e1', _, a2, a3⟩ := hsame i hi
    obtain ⟨e2', _, b2, b3⟩ := hsame j hj
    rw [a1] at a3
    cases a3
    rw [b1] at b3
    cases b3
    obtain ⟨c1, rfl⟩ := lookup_mem h1.storage a2
    obtain ⟨c2, rfl⟩ := lookup_mem h1.storage b2
    have : e2 = e1 := List.inj_on_of_nodup_map hnd c2 c1 hx2
    rw [this]

/-- C142, with `only_etoggles` alone: no header group ever has an entry, so that every message names all its headers. -/
theorem C142_never (u : Setup) (hu : Processor u) (he : u.cfg.onlyEtoggles = true) (hadj : u.cfg.hgAdjust = false)
    (himp : u.cfg.implicitAdd = false) (c0 : Compressor) (d : Codec) (hf : Fresh u c0 d) (ms : List Delta2.Message)
    (hms : ∀ m ∈ ms, MessageOk m) (c : Compressor) (blobs : List Str) (hc : compressAll u ms c0 = .ok (c, blobs)) (gid : Nat) :
    c.codec.group gid = [] := by
  obtain ⟨h0, h1, h2⟩ := fresh_ok hf
  have h3 : ∀ gid, c0.codec.group gid = [] := by
    intro gid
    obtain ⟨hi, rfl⟩ := hf
    simp only [Codec.init, bind, Except.bind] at hi
    split at hi
    · cases hi
    · cases hi
      rfl
  clear hf h0
  induction ms generalizing c0 blobs with
  | nil => cases hc; exact h3 gid
  | cons m ms ih =>
    obtain ⟨c1, blob, e1, k1, k2, _⟩ := compress_spec (processor_ok hu) hu.coder h1 h2 (hms m (by simp))
    simp only [compressAll, bind, Except.bind, e1] at hc
    split at hc
    · cases hc
    · rename_i r hr
      cases hc
      refine ih _ (fun m hm => hms m (by simp [hm])) _ hr k1 k2 ?_
      intro g
      obtain ⟨_, gone, kept, added, stored, copied, ht, _⟩ := compress_step hu h1 h2 (hms m (by simp)) e1
      by_cases hg : g = (groupOf u c0 m.host).2
      · subst hg
        obtain ⟨gs, hgs⟩ := compress_ops h2 e1
        exact message_noGroup (processor_ok hu) he hadj himp (hms m (by simp)).orders h1 m.headers (hms m (by simp)).bytes _ (h3 _) hgs
      · rw [ht.groups g hg, h3 g]
        rfl

/-- The group of the first host after each of two equal messages, with `implicit_hg_add` and `only_etoggles` as given. -/
def ownGroups (implicit etoggles : Bool) : Py (List (List Int)) := do
  let cfg : Config := ⟨4096, 4, 69, .varint, false, implicit, false, etoggles, false⟩
  let d ← Codec.init cfg
  [1, 2].mapM fun k => do
    let s ← operateAll cfg ((twoHosts.zip [1, 1]).take k) d
    pure (s.group 1)

/-- Only at the second message are the headers in the table before it; with `implicit_hg_add` they are in the group at once, so C142_group
needs its hypothesis; with `only_etoggles` they never are. The default case is the first example of C137. -/
example : (ownGroups true false).toOption = some [[65, 66, 67], [65, 66, 67]] ∧
  (ownGroups false true).toOption = some [[], []] := by decide +kernel

/-- The hypotheses of both hold of these messages. -/
example (b : Bool) : ∃ u, Processor u ∧ u.cfg.onlyEtoggles = b ∧ u.cfg.hgAdjust = false ∧ u.cfg.implicitAdd = false ∧
    ∃ c0 d, Fresh u c0 d ∧ (∀ m ∈ twoHosts, MessageOk m) ∧ ∃ c blobs, compressAll u twoHosts c0 = .ok (c, blobs) := by
  obtain ⟨h, _, hc⟩ := coder_shipped requestTable (.inl rfl)
  obtain ⟨c0, d, hf⟩ := C28_fresh ⟨⟨4096, 190, 255, .varint, false, false, false, b, true⟩, h, id⟩
  have hms : ∀ m ∈ twoHosts, MessageOk m := by
    intro m hm
    simp only [twoHosts, List.mem_cons, List.not_mem_nil, or_false] at hm
    rcases hm with rfl | rfl | rfl
    · exact ⟨plainOrders_ok, by decide +kernel⟩
    · exact ⟨plainOrders_ok, by decide +kernel⟩
    · exact ⟨reverseOrders_ok, by decide +kernel⟩
  have hu : Processor ⟨⟨4096, 190, 255, .varint, false, false, false, b, true⟩, h, id⟩ := by
    refine ⟨⟨fun _ => .error .value, if b then [b!"only_etoggles=1"] else [], ?_⟩, hc⟩
    cases b <;> rfl
  obtain ⟨c, blobs, hok, _⟩ := C28_total _ hu c0 d hf twoHosts hms
  exact ⟨_, hu, rfl, rfl, rfl, c0, d, hf, hms, c, blobs, hok⟩

end Verif.Props
