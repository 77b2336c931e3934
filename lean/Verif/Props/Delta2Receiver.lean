import Verif.Delta2.Left
import Verif.Props.DeltaAny
import Verif.Props.Session
import Verif.Props.Bytes
import Mathlib.Algebra.Ring.Parity
/-
What delta2's decompressor does with any frames, one after the other, whether they are accepted or not (C133).
-/
namespace Verif.Props
open Verif Verif.Delta2

/-- The states of a decompressor that was given any strings of bytes; after an exception it is used again. -/
inductive Heard (u : Setup) : Codec → Prop
  | new {s : Codec} : Codec.init u.cfg = .ok s → Heard u s
  | frame {s : Codec} (o : Orders) (bytes : Str) : Heard u s → o.Ok → (∀ x ∈ bytes, x < 256) → Heard u (decompressLeft u o s bytes)

/-- There is an entry with this index: one of the 65 fixed ones, or one in the ring. -/
def Present (s : Codec) (i : Int) : Prop := (0 ≤ i ∧ i < 65) ∨ ∃ e ∈ s.storage.lru.ring, e.seq = i

/-- The operation toggles index `i` in the header group. -/
def setsIdx (op : Delta2.Op) (i : Int) : Bool :=
  match op.opcode, op.indexStart, op.index with
  | .stoggl, _, some j => j == i
  | .strang, some a, some b => decide (a ≤ i) && decide (i ≤ b)
  | _, _, _ => false

/-- The operation toggles index `i` for this message. -/
def namesIdx (op : Delta2.Op) (i : Int) : Bool :=
  match op.opcode, op.indexStart, op.index with
  | .etoggl, _, some j => j == i
  | .etrang, some a, some b => decide (a ≤ i) && decide (i ≤ b)
  | _, _, _ => false

/-- Is the index in the header group after the operations? -/
def GroupHas (s : Codec) (gid : Nat) (ops : List Delta2.Op) (i : Int) : Prop :=
  Xor (i ∈ s.group gid) (Odd (ops.countP fun op => setsIdx op i))

/-- Does the message refer to the index? -/
def Refers (s : Codec) (gid : Nat) (ops : List Delta2.Op) (i : Int) : Prop :=
  Xor (GroupHas s gid ops i) (Odd (ops.countP fun op => namesIdx op i))

/-- The bounds of a range, and the number of its elements, fit a C long. -/
def RangeFits (a b : Int) : Prop := -2 ^ 63 ≤ a ∧ a < 2 ^ 63 ∧ -2 ^ 63 ≤ b + 1 ∧ b + 1 < 2 ^ 63 ∧ b + 1 - a < 2 ^ 63

/-! ### Lemmas -/

theorem mem_toggles (l : List Int) (i : Int) : ∀ a : List Int, i ∈ l.foldl toggleSet a ↔ Xor (i ∈ a) (Odd (l.count i)) := by
  induction l with
  | nil => intro a; simp [Xor]
  | cons x xs ih =>
    intro a
    rw [List.foldl_cons, ih, mem_toggleSet, List.count_cons]
    by_cases hx : i = x
    · subst hx
      simp only [beq_self_eq_true, if_true, ne_eq, not_true_eq_false, and_false, and_true, false_or, Nat.odd_add_one, Xor]
      tauto
    · have hx' : x ≠ i := Ne.symm hx
      simp [hx, hx', Xor]

theorem mem_xrange (a b i : Int) : i ∈ xrange a (b + 1) ↔ a ≤ i ∧ i ≤ b := by
  simp only [xrange, List.mem_map, List.mem_range]
  constructor
  · rintro ⟨k, hk, rfl⟩
    omega
  · rintro ⟨h1, h2⟩
    exact ⟨(i - a).toNat, by omega, by omega⟩

theorem count_xrange (a b i : Int) : (xrange a (b + 1)).count i = if a ≤ i ∧ i ≤ b then 1 else 0 := by
  rw [List.Nodup.count (xrange_nodup a (b + 1))]
  simp only [mem_xrange]

theorem count_stog {op : Delta2.Op} (h : Shaped op) (i : Int) : (opStog op).count i = if setsIdx op i then 1 else 0 := by
  obtain ⟨oc, j, s, k, v⟩ := op
  have h1 := h .index
  have h2 := h .indexStart
  cases oc <;> simp [Op.has, shapeOf] at h1 h2 <;> subst_vars <;> simp only [opStog, setsIdx, List.count_nil, Bool.false_eq_true, if_false]
  · obtain ⟨j, rfl⟩ := Option.isSome_iff_exists.1 h1
    simp [List.count_singleton]
  · obtain ⟨j, rfl⟩ := Option.isSome_iff_exists.1 h1
    obtain ⟨s, rfl⟩ := Option.isSome_iff_exists.1 h2
    simp [count_xrange]

theorem count_etog {op : Delta2.Op} (h : Shaped op) (i : Int) : (opEtog op).count i = if namesIdx op i then 1 else 0 := by
  obtain ⟨oc, j, s, k, v⟩ := op
  have h1 := h .index
  have h2 := h .indexStart
  cases oc <;> simp [Op.has, shapeOf] at h1 h2 <;> subst_vars <;> simp only [opEtog, namesIdx, List.count_nil, Bool.false_eq_true, if_false]
  · obtain ⟨j, rfl⟩ := Option.isSome_iff_exists.1 h1
    simp [List.count_singleton]
  · obtain ⟨j, rfl⟩ := Option.isSome_iff_exists.1 h1
    obtain ⟨s, rfl⟩ := Option.isSome_iff_exists.1 h2
    simp [count_xrange]

theorem count_flat {f : Delta2.Op → List Int} {g : Delta2.Op → Int → Bool} (ops : List Delta2.Op) (i : Int)
    (h : ∀ op ∈ ops, (f op).count i = if g op i then 1 else 0) : (ops.flatMap f).count i = ops.countP fun op => g op i := by
  induction ops with
  | nil => rfl
  | cons op ops ih =>
    rw [List.flatMap_cons, List.count_append, ih fun o ho => h o (by simp [ho]), h op (by simp), List.countP_cons]
    omega

theorem mem_groupAfter {s : Codec} {gid : Nat} {ops : List Delta2.Op} (h : ∀ op ∈ ops, Shaped op) (i : Int) :
    i ∈ groupAfter (s.group gid) ops ↔ GroupHas s gid ops i := by
  have hn : ((ops.flatMap opStog).foldl toggleSet []).Nodup := nodup_symDiff (a := []) List.nodup_nil
  unfold groupAfter GroupHas
  rw [mem_symDiff hn, mem_toggles, count_flat ops i fun op ho => count_stog (h op ho) i]
  simp [Xor]
  tauto

theorem mem_refsAfter {s : Codec} {gid : Nat} {ops : List Delta2.Op} (hs : (s.group gid).Nodup) (h : ∀ op ∈ ops, Shaped op) (i : Int) :
    i ∈ refsAfter (s.group gid) ops ↔ Refers s gid ops i := by
  have hn : (groupAfter (s.group gid) ops).Nodup := nodup_symDiff hs
  unfold refsAfter Refers
  rw [mem_symDiff hn, mem_groupAfter h, mem_toggles, count_flat ops i fun op ho => count_etog (h op ho) i]
  simp [Xor]
  tauto

theorem heard_base {u : Setup} (hu : Processor u) {s : Codec} (h : Heard u s) : Base u.cfg s := by
  induction h with
  | new h =>
    obtain ⟨s', h1, h2, _⟩ := init_ok (cfg := u.cfg)
    rw [h] at h1
    cases h1
    exact ⟨h2.storage, init_cells h, h2.wf, fun g hg => (h2.groups g hg).1⟩
  | frame o bytes _ ho hb ih =>
    unfold decompressLeft
    rcases C132_delta2 u.packing u.huffman rfl hu.coder bytes hb with e | ⟨gid, ops, e, _, _, _, hops⟩
    · rw [e]
      exact ih
    · rw [e]
      obtain ⟨hops, _, hb, _⟩ := execute_any (processor_ok hu).entries (ih.findOrMake gid) gid ops
        (fun op hop => (hops op hop _ (List.mem_singleton.2 rfl) _ (List.mem_singleton.2 rfl)).2.sent) o.refsD ho.refsD
      exact hb

/-! ### C133 -/

/-- C133: after any frames, a string of bytes is either accepted or raises one of three exceptions: StandardError, IndexError and
OverflowError.  There is no other outcome; in particular it always ends. -/
theorem C133_outcomes (u : Setup) (hu : Processor u) (s : Codec) (hs : Heard u s) (o : Orders) (ho : o.Ok) (bytes : Str)
    (hb : ∀ x ∈ bytes, x < 256) :
    Delta2.decompress u o s bytes = .error .standard ∨ Delta2.decompress u o s bytes = .error .index ∨
    Delta2.decompress u o s bytes = .error .overflow ∨
    ∃ out, Delta2.decompress u o s bytes = .ok (decompressLeft u o s bytes, out) := by
  have hbase := heard_base hu hs
  rcases C132_delta2 u.packing u.huffman rfl hu.coder bytes hb with e | ⟨gid, ops, e, _, _, _, hops⟩
  · exact .inl (by simp only [Delta2.decompress, executeReal, bind, Except.bind, e])
  · obtain ⟨hops, _, _, _, h⟩ := execute_any (processor_ok hu).entries (hbase.findOrMake gid) gid ops
      (fun op hop => (hops op hop _ (List.mem_singleton.2 rfl) _ (List.mem_singleton.2 rfl)).2.sent) o.refsD ho.refsD
    have hd : Delta2.decompress u o s bytes = execute u.cfg o.refsD (findOrMake s gid) ops gid := by
      simp only [Delta2.decompress, executeReal, bind, Except.bind, e]
    have hl : decompressLeft u o s bytes = executeLeft u.cfg o.refsD (findOrMake s gid) ops gid := by
      simp only [decompressLeft, e]
    rw [hd, hl]
    rcases h with ⟨_, out, h⟩ | ⟨_, ⟨err, h, hbad⟩, _⟩
    · exact .inr (.inr (.inr ⟨out, h⟩))
    · rcases hbad with rfl | rfl | rfl
      · exact .inr (.inl h)
      · exact .inl h
      · exact .inr (.inr (.inl h))

/-- C133: exactly which frames are accepted.  The bytes must give operations (C132).  With the indices translated, all clones must be
of entries that are there, all ranges must fit a C long, all indices referred to must be of entries, and with `hg_adjust`
also all indices in the header group. -/
theorem C133_accepted (u : Setup) (hu : Processor u) (s : Codec) (hs : Heard u s) (o : Orders) (ho : o.Ok) (bytes : Str)
    (hb : ∀ x ∈ bytes, x < 256) (gid : Nat) (ops ops' : List Delta2.Op) (he : Delta2.realOpsToOps u.packing bytes = .ok (gid, ops))
    (ht : lruToHg u.cfg s.storage ops = .ok ops') :
    (Delta2.decompress u o s bytes).isOk = true ↔
      (∀ op ∈ ops', (op.opcode = .sclone ∨ op.opcode = .eclone) → ∀ i, op.index = some i → Present s i) ∧
      (∀ op ∈ ops', ∀ a b, op.indexStart = some a → op.index = some b → RangeFits a b) ∧
      (∀ i, Refers s gid ops' i → Present s i) ∧ (u.cfg.hgAdjust = true → ∀ i, GroupHas s gid ops' i → Present s i) := by
  have hbase := heard_base hu hs
  rcases C132_delta2 u.packing u.huffman rfl hu.coder bytes hb with e | ⟨gid', ops1, e, _, _, _, hops⟩
  · rw [he] at e
    simp at e
  · rw [he] at e
    cases e
    have hsent := fun op hop => (hops op hop _ (List.mem_singleton.2 rfl) _ (List.mem_singleton.2 rfl)).2.sent
    obtain ⟨hops1, e1, hsh⟩ := lruToHg_total (cfg := u.cfg) hbase.storage ops hsent
    rw [ht] at e1
    cases e1
    obtain ⟨hops2, e2, _, _, h⟩ := execute_any (processor_ok hu).entries hbase gid ops hsent o.refsD ho.refsD
    rw [ht] at e2
    cases e2
    have hd : Delta2.decompress u o s bytes = execute u.cfg o.refsD s ops gid := by
      simp only [Delta2.decompress, executeReal, bind, Except.bind, he, execute_make]
    have hacc : (Delta2.decompress u o s bytes).isOk = true ↔ Accept u.cfg s.storage (s.group gid) ops' := by
      rw [hd]
      rcases h with ⟨h1, out, h⟩ | ⟨h1, ⟨err, h, _⟩, _⟩
      · rw [h]
        exact ⟨fun _ => h1, fun _ => rfl⟩
      · rw [h]
        exact ⟨fun h => by simp [Except.isOk, Except.toBool] at h, fun h => absurd h h1⟩
    rw [hacc]
    constructor
    · rintro ⟨h1, h2, h3⟩
      refine ⟨fun op hop hc i hi => ?_, fun op hop a b h4 h5 => ?_, fun i hi => ?_, fun had i hi => ?_⟩
      · refine (lookup_live_iff hbase.storage i).1 ((h1 op hop).live ?_ i hi)
        rcases hc with hc | hc <;> rw [hc] <;> rfl
      · have := (h1 op hop).fits b a h5 h4
        unfold xrangePy at this
        split at this
        · assumption
        · simp at this
      · exact h2 i ((mem_refsAfter (hbase.group gid) hsh i).2 hi)
      · exact h3 had i ((mem_groupAfter hsh i).2 hi)
    · rintro ⟨h1, h2, h3, h4⟩
      refine ⟨fun op hop => ⟨hsh op hop, fun hc i hi => ?_, fun i a h5 h6 => ?_⟩, fun i hi => ?_, fun had i hi => ?_⟩
      · refine (lookup_live_iff hbase.storage i).2 (h1 op hop ?_ i hi)
        cases hoc : op.opcode <;> simp [hoc, Opcode.isClone] at hc ⊢
      · exact if_pos (h2 op hop a i h6 h5)
      · exact h3 i ((mem_refsAfter (hbase.group gid) hsh i).1 hi)
      · exact h4 had i ((mem_groupAfter hsh i).1 hi)

/-- C133: whatever frames arrive, accepted or not, the limits are kept: of the number of entries, of the size that is accounted, and,
without `refcnt_vals`, of the characters of the values. -/
theorem C133_limits (u : Setup) (hu : Processor u) (s : Codec) (hs : Heard u s) :
    (s.storage.lru.ring.length : Int) ≤ max u.cfg.maxEntries 0 ∧ s.storage.lru.byteSize ≤ max u.cfg.maxBytes 0 ∧
    (u.cfg.refcntVals = false → (valChars s : Int) ≤ max u.cfg.maxBytes 0) := by
  have h := heard_base hu hs
  refine ⟨h.storage.entries, h.storage.bytes, fun hr => ?_⟩
  have h1 := h.storage.bytes
  have h2 := cells_counted h.cells
  rw [hr, if_neg (by decide)] at h2
  rw [← h2]
  exact h1

/-- The frame toggles index `i`. -/
def Touches (u : Setup) (s : Codec) (gid : Nat) (i : Int) (bytes : Str) : Prop :=
  ∃ ops ops', Delta2.realOpsToOps u.packing bytes = .ok (gid, ops) ∧ lruToHg u.cfg s.storage ops = .ok ops' ∧
    ∃ op ∈ ops', setsIdx op i = true ∨ namesIdx op i = true

/-- From one state to another by frames that do not toggle index `i` in the group. -/
inductive Without (u : Setup) (gid : Nat) (i : Int) (s : Codec) : Codec → Prop
  | refl : Without u gid i s s
  | frame {t : Codec} (o : Orders) (bytes : Str) : Without u gid i s t → o.Ok → (∀ x ∈ bytes, x < 256) →
    ¬ Touches u t gid i bytes → Without u gid i s (decompressLeft u o t bytes)

theorem poisoned_step {u : Setup} (hu : Processor u) {s : Codec} (hs : Heard u s) {gid : Nat} {i : Int} (hi : i < 0)
    (hm : i ∈ s.group gid) {o : Orders} (ho : o.Ok) {bytes : Str} (hb : ∀ x ∈ bytes, x < 256) (ht : ¬ Touches u s gid i bytes) :
    i ∈ (decompressLeft u o s bytes).group gid ∧
    ∀ ops, Delta2.realOpsToOps u.packing bytes = .ok (gid, ops) → (Delta2.decompress u o s bytes).isOk = false := by
  have hbase := heard_base hu hs
  rcases C132_delta2 u.packing u.huffman rfl hu.coder bytes hb with e | ⟨gid', ops, e, _, _, _, hops⟩
  · simp only [decompressLeft, e]
    exact ⟨hm, fun ops h => by simp at h⟩
  · have hsent := fun op hop => (hops op hop _ (List.mem_singleton.2 rfl) _ (List.mem_singleton.2 rfl)).2.sent
    obtain ⟨ops1, e1, hsh⟩ := lruToHg_total (cfg := u.cfg) (hbase.findOrMake gid').storage ops hsent
    obtain ⟨ops', e2, _, hkeep, h⟩ := execute_any (processor_ok hu).entries (hbase.findOrMake gid') gid' ops hsent o.refsD ho.refsD
    rw [e1] at e2
    cases e2
    have hd : Delta2.decompress u o s bytes = execute u.cfg o.refsD (findOrMake s gid') ops gid' := by
      simp only [Delta2.decompress, executeReal, bind, Except.bind, e]
    have hl : decompressLeft u o s bytes = executeLeft u.cfg o.refsD (findOrMake s gid') ops gid' := by
      simp only [decompressLeft, e]
    rw [hl, hd]
    by_cases hg : gid = gid'
    · subst hg
      have hno : ∀ op ∈ ops1, setsIdx op i = false ∧ namesIdx op i = false := by
        intro op hop
        by_contra hc
        refine ht ⟨ops, ops1, e, by rw [← findOrMake_storage s gid]; exact e1, op, hop, ?_⟩
        cases h1 : setsIdx op i <;> cases h2 : namesIdx op i <;> simp [h1, h2] at hc ⊢
      have c1 : ops1.countP (fun op => setsIdx op i) = 0 := List.countP_eq_zero.2 fun op hop => by simp [(hno op hop).1]
      have c2 : ops1.countP (fun op => namesIdx op i) = 0 := List.countP_eq_zero.2 fun op hop => by simp [(hno op hop).2]
      have hm' : i ∈ (findOrMake s gid).group gid := by rw [findOrMake_group]; exact hm
      have hin : GroupHas (findOrMake s gid) gid ops1 i := by
        unfold GroupHas
        rw [c1]
        exact .inl ⟨hm', by simp⟩
      have href : Refers (findOrMake s gid) gid ops1 i := by
        unfold Refers
        rw [c2]
        exact .inl ⟨hin, by simp⟩
      rcases h with ⟨hacc, _⟩ | ⟨_, ⟨err, h, _⟩, hgr⟩
      · have := hacc.refs i ((mem_refsAfter ((hbase.findOrMake gid).group gid) hsh i).2 href)
        have := live_range (hbase.findOrMake gid).storage this
        omega
      · refine ⟨?_, fun _ _ => by rw [h]; rfl⟩
        rcases hgr with hgr | hgr <;> rw [hgr]
        · exact hm'
        · exact (mem_groupAfter hsh i).2 hin
    · refine ⟨hkeep gid i hg hi (by rw [findOrMake_other]; exact hm), fun ops2 he2 => ?_⟩
      rw [e] at he2
      cases he2
      exact absurd rfl hg

/-- C133: one bad frame can shut a header group for ever.  Once the group has an index below 0, which no entry ever gets, every
later frame for it that does not toggle this very index is refused, and the index stays, whatever happens in between. -/
theorem C133_poisoned (u : Setup) (hu : Processor u) (s t : Codec) (hs : Heard u s) (gid : Nat) (i : Int) (hi : i < 0)
    (hm : i ∈ s.group gid) (ht : Without u gid i s t) :
    i ∈ t.group gid ∧ ∀ (o : Orders) (bytes : Str) (ops : List Delta2.Op), o.Ok → (∀ x ∈ bytes, x < 256) →
      Delta2.realOpsToOps u.packing bytes = .ok (gid, ops) → ¬ Touches u t gid i bytes →
      (Delta2.decompress u o t bytes).isOk = false := by
  have key : Heard u t ∧ i ∈ t.group gid := by
    induction ht with
    | refl => exact ⟨hs, hm⟩
    | frame o bytes _ ho hb hn ih => exact ⟨.frame o bytes ih.1 ho hb, (poisoned_step hu ih.1 hi ih.2 ho hb hn).1⟩
  exact ⟨key.2, fun o bytes ops ho hb he hn => (poisoned_step hu key.1 hi key.2 ho hb hn).2 ops he⟩

/-- C133: how to shut a header group: toggle an index beyond the oldest entry. -/
theorem C133_poison (u : Setup) (hu : Processor u) (hf : u.cfg.fromEnd = true) (s : Codec) (hs : Heard u s) (o : Orders) (ho : o.Ok)
    (bytes : Str) (hb : ∀ x ∈ bytes, x < 256) (gid : Nat) (v : Nat)
    (he : Delta2.realOpsToOps u.packing bytes = .ok (gid, [toggle .stoggl v])) (hv : s.storage.lru.ring.length + 65 ≤ v)
    (hn : (s.storage.lru.ring.length + 64 - v : Int) ∉ s.group gid) :
    (Delta2.decompress u o s bytes).isOk = false ∧
    (s.storage.lru.ring.length + 64 - v : Int) ∈ (decompressLeft u o s bytes).group gid := by
  have hbase := heard_base hu hs
  have hlen := hbase.storage.len
  have hx : lruToHg u.cfg s.storage [toggle .stoggl v] = .ok [toggle .stoggl (s.storage.lru.ring.length + 64 - v : Int)] := by
    have : lruIdxToHgIdx s.storage v = .ok (s.storage.lru.ring.length + 64 - v : Int) := by
      unfold lruIdxToHgIdx
      rw [if_neg (by omega), hlen]
      congr 1
      push_cast
      omega
    simp only [lruToHg, hf, if_true, translateOps, translateOp, optMapPy, toggle, bind, Except.bind, this, pure, Except.pure]
  generalize hi : (s.storage.lru.ring.length + 64 - v : Int) = i at *
  have hi0 : i < 0 := by omega
  rcases C132_delta2 u.packing u.huffman rfl hu.coder bytes hb with e | ⟨gid', ops, e, _, _, _, hops⟩
  · rw [he] at e
    simp at e
  · rw [he] at e
    cases e
    have hsent := fun op hop => (hops op hop _ (List.mem_singleton.2 rfl) _ (List.mem_singleton.2 rfl)).2.sent
    obtain ⟨ops', e2, _, _, h⟩ := execute_any (processor_ok hu).entries (hbase.findOrMake gid) gid _ hsent o.refsD ho.refsD
    rw [findOrMake_storage, hx] at e2
    cases e2
    have hsh : ∀ op ∈ [toggle .stoggl i], Shaped op := by
      intro op hop
      rw [List.mem_singleton] at hop
      subst hop
      intro f
      cases f <;> rfl
    have hin : GroupHas (findOrMake s gid) gid [toggle .stoggl i] i := by
      unfold GroupHas
      refine .inr ⟨?_, by rw [findOrMake_group]; exact hn⟩
      simp [toggle, setsIdx]
    have href : Refers (findOrMake s gid) gid [toggle .stoggl i] i := .inl ⟨hin, by simp [toggle, namesIdx]⟩
    have hd : Delta2.decompress u o s bytes = execute u.cfg o.refsD (findOrMake s gid) [toggle .stoggl v] gid := by
      simp only [Delta2.decompress, executeReal, bind, Except.bind, he]
    have hl : decompressLeft u o s bytes = executeLeft u.cfg o.refsD (findOrMake s gid) [toggle .stoggl v] gid := by
      simp only [decompressLeft, he]
    rw [hd, hl]
    rcases h with ⟨hacc, _⟩ | ⟨_, ⟨err, h, _⟩, _⟩
    · have := hacc.refs i ((mem_refsAfter ((hbase.findOrMake gid).group gid) hsh i).2 href)
      have := live_range (hbase.findOrMake gid).storage this
      omega
    · refine ⟨by rw [h]; rfl, ?_⟩
      have hexec : execOps [toggle .stoggl i] { storage := s.storage } = .ok { storage := s.storage, stoggles := [i] } := rfl
      unfold executeLeft
      simp only [h, findOrMake_idem, findOrMake_storage, hx, hexec]
      simp only [Codec.group, Dict.get?_set, if_true, Option.getD_some]
      have : i ∈ symDiff ((findOrMake s gid).group gid) [i] := by
        rw [mem_symDiff (by simp), findOrMake_group]
        exact .inr ⟨hn, by simp⟩
      exact this

/-- The hearFrames of some frames for a Processor without parameters: the number of headers. -/
def outcomesFrom (h : Huff.Huffman) : List Str → Codec → List (Py Nat)
  | [], _ => []
  | f :: fs, s =>
    let u : Setup := ⟨defaultConfig, h, id⟩
    let o : Orders := ⟨id, id, id, id, id, id⟩
    (Delta2.decompress u o s f).map (·.2.length) :: outcomesFrom h fs (decompressLeft u o s f)

/-- The same for a new one. -/
def hearFrames (frames : List Str) : Py (List (Py Nat)) := do
  let h ← flatCoder
  let s ← Codec.init defaultConfig
  pure (outcomesFrom h frames s)

/-- A frame that toggles index 100, which does not exist. -/
def badFrame : Str := [0, 3, 8, 1, 128, 0, 255, 255, 0, 0, 253, 161]

/-- A frame for the same group that toggles index 1. -/
def goodFrame : Str := [0, 2, 8, 1, 0, 0, 0, 1, 0, 0, 0x10]

/-- The good frame is accepted; after the bad one it is not, and not a second time either; for another group it is. -/
example : hearFrames [goodFrame] = .ok [.ok 1] := by decide +kernel
example : hearFrames [badFrame, goodFrame, goodFrame] = .ok [.error .index, .error .index, .error .index] := by decide +kernel
example : hearFrames [badFrame, [0, 2, 8, 1, 0, 0, 0, 1, 7, 0, 0x10]] = .ok [.error .index, .ok 1] := by decide +kernel

/-- A range up to 2^64. -/
example : hearFrames [[0, 13, 8, 1, 128, 0, 255, 255, 0, 32, 249, 239, 255, 255, 255, 255, 255, 255, 255, 255, 255, 16]] =
    .ok [.error .overflow] := by decide +kernel

/-- A frame cut short. -/
example : hearFrames [[0, 2, 8, 1]] = .ok [.error .standard] := by decide +kernel

/-- A new entry, and then a toggle of it. -/
example : hearFrames [[0, 5, 8, 1, 128, 0, 255, 255, 0, 96, 95, 254, 96, 254], [0, 2, 8, 1, 0, 0, 0, 1, 0, 0, 0]] = .ok [.ok 1, .ok 1] := by
  decide +kernel

/-- The hypotheses of `C133_poison` for the bad frame. -/
example : (flatCoder.bind fun h => Delta2.realOpsToOps ⟨.varint, some h⟩ badFrame) = .ok (0, [toggle .stoggl (100 : Nat)]) := by
  decide +kernel
example : defaultConfig.fromEnd = true := rfl

end Verif.Props
