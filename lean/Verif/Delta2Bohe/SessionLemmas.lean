import Verif.Delta2Bohe.InStep
import Verif.Delta2Bohe.WireLemmas
/-
delta2_bohe: sessions in which nothing is removed from the storage.
-/
namespace Verif.Delta2Bohe
open Verif Verif.Bits Verif.Huff Verif.Huff.Spec

/-- Storing what there is room for. -/
theorem afterL_room : ∀ (kvs : List Hdr) (s : Lru), LruOk s → s.seqNum + kvs.length ≤ 65536 →
    sizeSum s.ring + (kvs.map hsize).sum ≤ 16384 → s.ring.length + kvs.length ≤ 1024 →
    LruOk (afterL kvs s) ∧ (afterL kvs s).first = s.first ∧ sizeSum (afterL kvs s).ring = sizeSum s.ring + (kvs.map hsize).sum ∧
      (afterL kvs s).ring.length = s.ring.length + kvs.length := by
  intro kvs
  induction kvs with
  | nil => intro s h _ _ _; exact ⟨h, rfl, by simp [afterL], by simp [afterL]⟩
  | cons x kvs ih =>
    obtain ⟨k, v⟩ := x
    intro s hs hq hb hn
    simp only [List.length_cons, List.map_cons, List.sum_cons, hsize] at hq hb hn
    obtain ⟨n, hn', s', e, hs', hr, hsq, hmin⟩ := insL_spec hs k v (by omega) (by omega)
    have h0 : n = 0 := by
      by_contra hne
      have := hmin 0 (by omega)
      simp only [List.drop_zero] at this
      omega
    subst h0
    rw [List.drop_zero] at hr
    have hlen : s'.ring.length = s.ring.length + 1 := by rw [hr]; simp
    have hsum : sizeSum s'.ring = sizeSum s.ring + (v.length + k.length) := by rw [hr]; simp [Entry.size]
    have hfirst : s'.first = s.first := by
      have := hs.lo
      unfold Lru.first
      omega
    simp only [afterL, e]
    obtain ⟨a, b, c, d⟩ := ih s' hs' (by omega) (by rw [hsum]; omega) (by omega)
    exact ⟨a, b.trans hfirst, by simp only [c, hsum, List.map_cons, List.sum_cons, hsize]; omega,
      by simp only [d, hlen, List.length_cons]; omega⟩

/-! ### Which strings are Huffman coded -/

/-- Everything is Huffman coded. -/
def Coded (g : Instrs) : Prop := (∀ x ∈ g.clone, x.2.2 = true) ∧ ∀ x ∈ g.kvsto, x.2.2 = true

theorem processKV_coded {ord : List Nat → List Nat} {gid : Nat} {k v : Str} (hk : k ∉ Bohe.encoderNames) {c c' : Codec} {g g' : Instrs}
    (h : processKV ord gid k v c g = .ok (c', g')) (hg : Coded g) : Coded g' := by
  simp only [processKV, bind, Except.bind] at h
  split at h
  · cases h
  rename_i r hr
  split at h
  · cases h; exact hg
  split at h
  · split at h
    · cases h
    split at h
    · cases h; exact hg
    · cases h; exact hg
  · cases h
    refine ⟨fun x hx => ?_, hg.2⟩
    rcases List.mem_append.mp hx with hx | hx
    · exact hg.1 x hx
    · rw [List.mem_singleton] at hx
      subst hx
      simpa using hk
  · cases h
    refine ⟨hg.1, fun x hx => ?_⟩
    rcases List.mem_append.mp hx with hx | hx
    · exact hg.2 x hx
    · rw [List.mem_singleton] at hx
      subst hx
      simpa using hk

theorem procAll_coded {ord : List Nat → List Nat} {gid : Nat} : ∀ {ps : List Hdr} {c c' : Codec} {g g' : Instrs},
    (∀ p ∈ ps, p.1 ∉ Bohe.encoderNames) → procAll ord gid ps c g = .ok (c', g') → Coded g → Coded g' := by
  intro ps
  induction ps with
  | nil => intro c c' g g' _ h hg; cases h; exact hg
  | cons p ps ih =>
    obtain ⟨k, v⟩ := p
    intro c c' g g' hk h hg
    simp only [procAll, bind, Except.bind] at h
    split at h
    · cases h
    rename_i r hr
    exact ih (fun p hp => hk p (by simp [hp])) h (processKV_coded (hk (k, v) (by simp)) hr hg)

theorem makeBody_coded {enc : Str → Str → Py Str} {o : Orders} {c c' : Codec} {hs ps : List Hdr} {gid : Nat} {g : Instrs}
    (hps : pieces enc hs = .ok ps) (hk : ∀ p ∈ ps, p.1 ∉ Bohe.encoderNames) (h : makeBody enc o c hs gid = .ok (c', g)) : Coded g := by
  simp only [makeBody, headersLoop_eq o.has gid hs _ _ hps, bind, Except.bind] at h
  split at h
  · cases h
  rename_i r hr
  split at h
  · cases h
  split at h
  · cases h
  split at h
  · cases h
  split at h
  · cases h
  cases h
  have : Coded r.2 := procAll_coded (g := {}) (c' := r.1) hk hr ⟨by simp, by simp⟩
  exact ⟨this.1, this.2⟩

theorem makeOperations_coded {enc : Str → Str → Py Str} {o : Orders} {c c' : Codec} {hs ps : List Hdr} {gid : Nat} {g : Instrs}
    (hps : pieces enc hs = .ok ps) (hk : ∀ p ∈ ps, p.1 ∉ Bohe.encoderNames) (h : makeOperations enc o c hs gid = .ok (c', g)) : Coded g := by
  simp only [makeOperations, bind, Except.bind] at h
  split at h
  · cases h
  rename_i r hr
  split at h
  · cases h
  cases h
  exact makeBody_coded hps hk hr

/-! ### Small sessions -/

/-- Nothing has been removed from the storage, which holds at most `S` bytes and `N` entries, and no group holds more
than `M` entries. -/
structure Small (M : Nat) (c r : Codec) (S N : Nat) : Prop where
  same : Same c r
  first : c.lru.first = 65
  bytes : sizeSum c.lru.ring ≤ S
  count : c.lru.ring.length ≤ N
  groups : ∀ gid g, c.groups.get? gid = some g → g.store.keys.length ≤ M

theorem small_seq {c r : Codec} {M S N : Nat} (h : Small M c r S N) : c.lru.seqNum = 65 + c.lru.ring.length := by
  have := h.first
  have := h.same.sender.lru.lo
  unfold Lru.first at *
  omega

/-- A message for which there is room. -/
theorem small_step {enc : Str → Str → Py Str} {o : Orders} {c r : Codec} {gid : Nat} {hs ps : List Hdr} {M S N : Nat} (hi : Small M c r S N)
    (ho : ∀ l, (o.has l).Perm l) (ho' : ∀ l, (o.old l).Perm l) (hps : pieces enc hs = .ok ps) (hn : ps.Nodup)
    (hS : S + 2 * (ps.map hsize).sum ≤ 16384) (hN : N + 2 * ps.length ≤ 1024) (h128 : ps.length ≤ M) :
    ∃ c2 g r2 es, makeOperations enc o c hs gid = .ok (c2, g) ∧ receive r g gid = .ok (r2, fixCookie (collect es [])) ∧
      Small M c2 r2 (S + 2 * (ps.map hsize).sum) (N + 2 * ps.length) ∧ (es.map fun e => (e.key, e.val)).Perm ps ∧
      Effect c c2 g gid ps (es.map fun e => (e.key, e.val)) ∧ g.toggl.length ≤ 2 * M := by
  have hseq := small_seq hi
  have hb := hi.bytes
  have hc := hi.count
  have hfit : Fits enc o c hs gid ps := by
    refine ⟨ho, ho', hps, hn, by omega, by omega, by omega, ?_⟩
    intro c1 g e i hi'
    obtain ⟨c1', X, V, T, C, K, A, B, e1, hsp, hl1, -⟩ := makeBody_spec (gid := gid) ho ho' hi.same.sender hi.same.past hps hn (by omega) (by omega)
    rw [e] at e1
    cases e1
    have hlen := hsp.len
    have hsum := hsp.sizes
    obtain ⟨-, hf, -, -⟩ := afterL_room (A ++ B) c.lru hi.same.sender.lru (by simp; omega) (by omega) (by simp; omega)
    unfold Alive
    rw [hl1, hf, hi.first]
    omega
  obtain ⟨c2, g, r2, es, e1, e2, hsame, hp, hsq, heff⟩ := step_spec hi.same hfit
  refine ⟨c2, g, r2, es, e1, e2, ?_, hp, heff, ?_⟩
  · obtain ⟨AB, hl, hs1, hl1⟩ := heff.lru
    have hes : ((es.map fun e => (e.key, e.val)).map hsize).sum = (ps.map hsize).sum := (hp.map hsize).sum_eq
    have hel : (es.map fun e => (e.key, e.val)).length = ps.length := hp.length_eq
    obtain ⟨a1, a2, a3, a4⟩ := afterL_room AB c.lru hi.same.sender.lru (by omega) (by omega) (by omega)
    have hseq1 : (afterL AB c.lru).seqNum = 65 + (afterL AB c.lru).ring.length := by
      have := a1.lo
      rw [hi.first] at a2
      unfold Lru.first at a2
      omega
    obtain ⟨b1, b2, b3, b4⟩ := afterL_room (es.map fun e => (e.key, e.val)) (afterL AB c.lru) a1 (by omega) (by rw [hes]; omega) (by rw [hel]; omega)
    rw [← hl] at b1 b2 b3 b4
    refine ⟨hsame, by rw [b2, a2, hi.first], by rw [b3, hes]; omega, by rw [b4, hel]; omega, ?_⟩
    intro x grp hx
    by_cases hxg : x = gid
    · subst hxg
      exact (heff.group grp hx).trans h128
    · cases hcx : c.groups.get? x with
      | none =>
        have : grp.store.keys = [] := by
          rw [List.eq_nil_iff_forall_not_mem]
          intro i hi'
          obtain ⟨g', n, h1, -⟩ := heff.others x i hxg ((inG_keys hx i).mpr hi')
          rw [hcx] at h1
          cases h1
        simp [this]
      | some g' =>
        refine le_trans (nodup_length_le (hsame.sender.groups.stores x grp hx) fun i hi' => ?_) (hi.groups x g' hcx)
        exact (inG_keys hcx i).mp (heff.others x i hxg ((inG_keys hx i).mpr hi'))
  · cases hcg : c.groups.get? gid with
    | none => have := heff.first hcg; omega
    | some grp =>
      have := heff.toggles grp hcg
      have := hi.groups gid grp hcg
      omega

theorem small_init (M : Nat) : ∃ c, Codec.init = .ok c ∧ Small M c c 0 0 := by
  refine ⟨_, init_eq, ⟨⟨rfl, lru0_ok, ⟨by simp [Dict.WF, Dict.keys], by simp [Dict.get?], by simp [Dict.get?]⟩, ?_⟩, ?_,
    ⟨rfl, lru0_ok, ⟨by simp [Dict.WF, Dict.keys], by simp [Dict.get?], by simp [Dict.get?]⟩, ?_⟩, rfl, fun _ _ => Iff.rfl⟩, rfl, ?_, ?_, ?_⟩
  · rintro gid i ⟨g, n, h, -⟩; cases h
  · rintro gid i ⟨g, h, -⟩; cases h
  · rintro gid i ⟨g, n, h, -⟩; cases h
  · exact Nat.le_of_eq rfl
  · exact Nat.le_of_eq rfl
  · intro gid g h; cases h

end Verif.Delta2Bohe
