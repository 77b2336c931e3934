import Mathlib.Data.List.Perm.Subperm
import Verif.Cpp.CodecWire
import Verif.Props.CppHuffman
/-
C98-C100: the C++ header encoder (spdy4_headers_codec.cc) for all sequences of frames.
-/
namespace Verif.Props
open Verif Verif.Huff Verif.Cpp
open Verif.Bits.Spec (Tape bitsOf padZeros)

/-- The states of the encoder: constructed, after frames that were written, after changes of its limits.  The sets
of entries of header groups may be visited in any order. -/
inductive Reach (h : Coder) : Codec → Prop
  | start {s} : Codec.start defaultHeaders = .ok s → Reach h s
  | frame {s s' order b b' streamId g headers ends} : Reach h s → (∀ l, (order l).Perm l) → 0 < g →
      processFrame h order s b streamId g headers ends = .ok (b', s') → Reach h s'
  | maxState {s} (n : Nat) : Reach h s → Reach h (setMaxStateSize s n)
  | maxVals {s} (n : Nat) : Reach h s → Reach h (setMaxVals s n)

/-- The lines of a frame: cookies are cut into crumbs. -/
def frameLines (headers : List (Str × Str)) : List (Str × Str) := headers.flatMap lineList

/-- A pair of name and value is stored. -/
def stored (s : Codec) (kv : Str × Str) : Prop := ∃ q e, s.heap.get? q = some e ∧ (e.key, e.val) = kv

private theorem idle_limit {s : Codec} (h : Idle s) (n : Nat) : Idle (setMaxStateSize s n) :=
  ⟨⟨h.inv.kwf, h.inv.hwf, h.inv.fresh, h.inv.up, h.inv.down, h.inv.vnd, h.inv.refc, h.inv.refk, h.inv.lnd, h.inv.lru,
      h.inv.pin, h.inv.gwf, h.inv.gin, h.inv.grp, h.inv.size, h.inv.nums⟩, h.unpinned, h.gens⟩

private theorem defaults_fit : defaultHeaders.length ≤ 1024 ∧
    (defaultHeaders.map fun c => c.1.length + c.2.length).sum ≤ 65536 := by decide +kernel

private theorem frame_inv {h : Coder} {order : List Nat → List Nat} (ho : ∀ l, (order l).Perm l) {s : Codec} (hs : Idle s)
    {g : Nat} (hg : 0 < g) {headers : List (Str × Str)} {b b' : BB} {s' : Codec} {streamId : Nat} {ends : Bool}
    (hp : processFrame h order s b streamId g headers ends = .ok (b', s')) :
    ∃ s1 i, beforeWriting order s g headers = .ok (s1, i) ∧ Staged s s1 g (frameLines headers) i ∧
      serialize h s1 i b streamId ends = .ok b' ∧ Done s s' g (frameLines headers) := by
  obtain ⟨s1, i, e1, h1⟩ := beforeWriting_spec ho hs hg headers
  obtain ⟨s2, e2, h2⟩ := frame_end h1
  unfold processFrame at hp
  simp only [e1, bind, Except.bind] at hp
  cases e3 : serialize h s1 i b streamId ends with
  | error e => simp [e3] at hp
  | ok b1 =>
    simp only [e3, e2, Except.ok.injEq, Prod.mk.injEq] at hp
    obtain ⟨rfl, rfl⟩ := hp
    exact ⟨s1, i, e1, h1, e3, h2⟩

private theorem reach_idle {h : Coder} {s : Codec} (hr : Reach h s) : Idle s ∧
    ∀ c ∈ defaultHeaders, ∃ q e, s.heap.get? q = some e ∧ e.pair = c ∧ e.inLru = false := by
  induction hr with
  | start hs =>
    obtain ⟨s', e, h1, _, _, h2⟩ := start_spec defaultHeaders defaults_fit.1 defaults_fit.2
    rw [hs] at e
    cases e
    exact ⟨h1, h2⟩
  | frame _ ho hg hp ih =>
    obtain ⟨s1, i, _, _, _, hd⟩ := frame_inv ho ih.1 hg hp
    refine ⟨hd.idle, fun c hc => ?_⟩
    obtain ⟨q, e, he, hpair, hi⟩ := ih.2 c hc
    exact ⟨q, e, hd.kept q e he hi, hpair, hi⟩
  | maxState n _ ih => exact ⟨idle_limit ih.1 n, ih.2⟩
  | maxVals n _ ih => exact ⟨idle_limit ih.1 n, ih.2⟩

/-! ### C98: the state -/

section
variable {h : Coder} {s : Codec} (hr : Reach h s)
include hr

/-- C98: the accounts of the storage are exact, whatever frames were sent: bytes of all names and values, and the
number of values.  Every value is stored under its name, and the eviction list has exactly the entries that may be
evicted. -/
theorem C98_accounts : s.stateSize = (s.keymap.map fun x => x.1.length).sum + (s.heap.map fun x => x.2.val.length).sum ∧
    s.numVals = s.heap.length ∧
    (∀ p e, s.heap.get? p = some e → ∃ k, s.keymap.get? e.key = some k ∧ (e.val, p) ∈ k.vals) ∧
    (∀ key k, s.keymap.get? key = some k → k.refcnt = 0 ∧ ∀ v p, (v, p) ∈ k.vals →
      ∃ e, s.heap.get? p = some e ∧ e.key = key ∧ e.val = v) ∧
    (∀ p, some p ∈ s.lru ↔ ∃ e, s.heap.get? p = some e ∧ e.inLru = true) := by
  obtain ⟨⟨hi, _, _⟩, _⟩ := reach_idle hr
  exact ⟨hi.size, hi.nums, hi.up, fun key k hk => ⟨hi.refc key k hk, hi.down key k hk⟩, hi.lru⟩

/-- C98: the default headers are always stored, and never in the eviction list. -/
theorem C98_defaults : ∀ c ∈ defaultHeaders, ∃ q e, s.heap.get? q = some e ∧ (e.key, e.val) = c ∧ some q ∉ s.lru := by
  intro c hc
  obtain ⟨hi, hd⟩ := reach_idle hr
  obtain ⟨q, e, he, hp, hl⟩ := hd c hc
  refine ⟨q, e, he, hp, fun hm => ?_⟩
  obtain ⟨f, hf, hfl⟩ := (hi.inv.lru q).1 hm
  rw [he] at hf
  cases hf
  rw [hl] at hfl
  cases hfl

variable {order : List Nat → List Nat} (ho : ∀ l, (order l).Perm l) {g : Nat} (hg : 0 < g) {headers : List (Str × Str)}
  {b b' : BB} {s' : Codec} {streamId : Nat} {ends : Bool}
include ho hg

/-- C98: up to the writing of its operations no frame fails. -/
theorem C98_total (headers : List (Str × Str)) : ∃ s1 i, beforeWriting order s g headers = .ok (s1, i) := by
  obtain ⟨s1, i, e, _⟩ := beforeWriting_spec ho (reach_idle hr).1 hg headers
  exact ⟨s1, i, e⟩

variable (hp : processFrame h order s b streamId g headers ends = .ok (b', s'))
include hp

/-- C98 (partial: without repeated lines): after a frame its header group shows exactly its lines. -/
theorem C98_shows_partial (hn : (frameLines headers).Nodup) : (shows s' g).Perm (frameLines headers) := by
  obtain ⟨_, _, _, _, _, hd⟩ := frame_inv ho (reach_idle hr).1 hg hp
  exact hd.shown hn

/-- C98: after a frame both limits are kept, or all that is left to evict are lines of this frame. -/
theorem C98_limits : (s'.numVals ≤ s'.maxVals ∧ s'.stateSize ≤ s'.maxState) ∨
    ∀ q e, some q ∈ s'.lru → s'.heap.get? q = some e → (e.key, e.val) ∈ frameLines headers := by
  obtain ⟨_, _, _, _, _, hd⟩ := frame_inv ho (reach_idle hr).1 hg hp
  refine hd.limits.imp id (fun hl q e hq he => hl q e he ?_)
  obtain ⟨f, hf, hfl⟩ := (hd.idle.inv.lru q).1 hq
  rw [he] at hf
  cases hf
  exact hfl

/-- C98: a frame of one header group adds nothing to the others. -/
theorem C98_others (g' : Nat) (hne : g' ≠ g) : ∀ q, (groupOf s' g').has q = true → (groupOf s g').has q = true := by
  obtain ⟨_, _, _, _, _, hd⟩ := frame_inv ho (reach_idle hr).1 hg hp
  exact hd.other g' hne

end

/-! ### C99: when a frame can be written -/

private theorem mem_splitOn59 (v : Str) : ∀ p ∈ splitOn 59 v, ∀ x ∈ p, x ∈ v := by
  induction v with
  | nil => simp [splitOn]
  | cons y v ih =>
    intro p hp x hx
    unfold splitOn at hp
    split at hp
    · rcases List.mem_cons.1 hp with rfl | hp
      · cases hx
      · exact List.mem_cons_of_mem _ (ih p hp x hx)
    · cases hs : splitOn 59 v with
      | nil =>
        rw [hs] at hp
        simp only [List.mem_singleton] at hp
        subst hp
        simp only [List.mem_singleton] at hx
        simp [hx]
      | cons q qs =>
        rw [hs] at hp
        rcases List.mem_cons.1 hp with rfl | hp
        · rcases List.mem_cons.1 hx with rfl | hx
          · simp
          · exact List.mem_cons_of_mem _ (ih q (by simp [hs]) x hx)
        · exact List.mem_cons_of_mem _ (ih p (by simp [hs, hp]) x hx)

private theorem mem_crumbs (v : Str) : ∀ p ∈ crumbsOf (splitOn 59 v), ∀ x ∈ p, x ∈ v := by
  intro p hp x hx
  cases hs : splitOn 59 v with
  | nil =>
    rw [hs] at hp
    cases hp
  | cons q qs =>
    rw [hs] at hp
    have hp' : p ∈ q :: qs.map fun y => y.dropWhile (· = 32) := by
      simp only [crumbsOf] at hp
      split at hp
      · exact List.mem_of_mem_dropLast hp
      · exact hp
    rcases List.mem_cons.1 hp' with rfl | hp'
    · exact mem_splitOn59 v p (by simp [hs]) x hx
    · obtain ⟨y, hy, rfl⟩ := List.mem_map.1 hp'
      exact mem_splitOn59 v y (by simp [hs, hy]) x ((List.dropWhile_sublist _).subset hx)

/-- All characters of a frame are bytes. -/
def Bytes (headers : List (Str × Str)) : Prop := ∀ kv ∈ headers, (∀ x ∈ kv.1, x < 256) ∧ ∀ x ∈ kv.2, x < 256

private theorem lines_bytes {headers : List (Str × Str)} (hb : Bytes headers) : Bytes (frameLines headers) := by
  intro c hc
  obtain ⟨kv, hkv, hc⟩ := List.mem_flatMap.1 hc
  obtain ⟨h1, h2⟩ := hb kv hkv
  unfold lineList at hc
  split at hc
  · obtain ⟨p, hp, rfl⟩ := List.mem_map.1 hc
    exact ⟨h1, fun x hx => h2 x (mem_crumbs _ p hp x hx)⟩
  · rw [List.mem_singleton.1 hc]
    exact ⟨h1, h2⟩

/-- A line of the group shown before the frame is no longer stored when the operations are written. -/
def Dangles (order : List Nat → List Nat) (s : Codec) (g : Nat) (headers : List (Str × Str)) : Prop :=
  ∃ s1 i p, beforeWriting order s g headers = .ok (s1, i) ∧ (groupOf s g).has p = true ∧ s1.heap.get? p = none

/-- What a frame writes, if nothing dangles. -/
private theorem frame_ok {h : Coder} {codes : List (List Bool)} (hc : IsCoder h codes)
    {order : List Nat → List Nat} (ho : ∀ l, (order l).Perm l) {s : Codec} (hs : Idle s) {g : Nat} (hg : 0 < g)
    {headers : List (Str × Str)} (hb : Bytes headers) {b : BB} {t : Tape} (ht : HoldsC b t) {streamId : Nat}
    (hid : streamId / 32768 % 2 = 0) (ends : Bool) (hd : ¬ Dangles order s g headers) :
    ∃ s1 i b' s', beforeWriting order s g headers = .ok (s1, i) ∧ Staged s s1 g (frameLines headers) i ∧
      processFrame h order s b streamId g headers ends = .ok (b', s') ∧
      HoldsC b' (putFrame codes t streamId ends
        (i.clones.map fun c => ((((s1.keymap.get? c.1).map CKey.idx).getD 0), c.2)) i.kvstos) := by
  obtain ⟨s1, i, e1, h1⟩ := beforeWriting_spec ho hs hg headers
  obtain ⟨s2, e2, h2⟩ := frame_end h1
  have hoffs : ∀ p ∈ i.offs, ∃ e, s1.heap.get? p = some e := by
    intro p hp
    cases he : s1.heap.get? p with
    | none => exact absurd ⟨s1, i, p, e1, h1.offs p hp, he⟩ hd
    | some e => exact ⟨e, rfl⟩
  obtain ⟨b', e3, hb'⟩ := serialize_spec hc h1.ons hoffs h1.clones
    (fun c hcm => lines_bytes hb c (h1.lines c hcm)) hid ends ht
  refine ⟨s1, i, b', s2, e1, h1, ?_, hb'⟩
  simp only [processFrame, e1, e3, e2, bind, Except.bind]

private theorem frame_bad {h : Coder} {order : List Nat → List Nat} (ho : ∀ l, (order l).Perm l) {s : Codec} (hs : Idle s)
    {g : Nat} (hg : 0 < g) {headers : List (Str × Str)} (b : BB) (streamId : Nat) (ends : Bool)
    (hd : Dangles order s g headers) : processFrame h order s b streamId g headers ends = .error .index := by
  obtain ⟨s1, i, e1, h1⟩ := beforeWriting_spec ho hs hg headers
  obtain ⟨s1', i', p, e1', hp, hn⟩ := hd
  rw [e1] at e1'
  cases e1'
  have hoff : p ∈ i.offs := (h1.gone p hp).resolve_right (by rintro ⟨e, he⟩; rw [hn] at he; cases he)
  simp only [processFrame, e1, bind, Except.bind, serialize, preProcess_bad h1.ons ⟨p, hoff, hn⟩]

section
variable {W : Type} (ops : Weights W) (table : FreqTable) (hsyms : table.map (·.1) = List.range 257) (h : Coder)
  (hi : init ops Coder.fresh table = .ok h)
  {s : Codec} (hr : Reach h s) {order : List Nat → List Nat} (ho : ∀ l, (order l).Perm l) {g : Nat} (hg : 0 < g)
  {headers : List (Str × Str)} (hb : Bytes headers) {b : BB} {t : Tape} (ht : HoldsC b t) {streamId : Nat}
  (hid : streamId / 32768 % 2 = 0) (ends : Bool)

include hr ho hg in
/-- C99: a frame reads freed memory exactly if an entry its group showed before is evicted in it; ... -/
theorem C99_dangles (hd : Dangles order s g headers) (b : BB) (streamId : Nat) :
    processFrame h order s b streamId g headers ends = .error .index :=
  frame_bad ho (reach_idle hr).1 hg b streamId ends hd

include hsyms hi hr ho hg hb ht hid

/-- C99: ... every other frame can be written. -/
theorem C99_ok (hd : ¬ Dangles order s g headers) :
    ∃ b' s', processFrame h order s b streamId g headers ends = .ok (b', s') := by
  obtain ⟨_, _, b', s', _, _, e, _⟩ := frame_ok (coder_of hsyms hi) ho (reach_idle hr).1 hg hb ht hid ends hd
  exact ⟨b', s', e⟩

/-- C99: so frames with stored lines only can be written, ... -/
theorem C99_stored (hst : ∀ c ∈ frameLines headers, stored s c) :
    ∃ b' s', processFrame h order s b streamId g headers ends = .ok (b', s') := by
  refine C99_ok ops table hsyms h hi hr ho hg hb ht hid ends ?_
  rintro ⟨s1, i, p, e, hp, hn⟩
  obtain ⟨s1', i', e', h1⟩ := beforeWriting_spec ho (reach_idle hr).1 hg headers
  rw [e] at e'
  cases e'
  have hno : i.clones ++ i.kvstos = [] := by
    refine List.eq_nil_iff_forall_not_mem.2 (fun c hc => ?_)
    obtain ⟨q, f, hf, hpair⟩ := hst c (h1.lines c hc)
    exact h1.new c hc q f hf hpair
  obtain ⟨n1, n2⟩ := List.append_eq_nil_iff.1 hno
  obtain ⟨v, hv⟩ := has_iff.1 hp
  obtain ⟨f, hf⟩ := (reach_idle hr).1.inv.group_in g hv
  rw [h1.still n1 n2, hf] at hn
  cases hn

/-- C99: ... and the first frame of a group, or after a frame without lines, ... -/
theorem C99_first (he : ∀ p, (groupOf s g).has p = false) :
    ∃ b' s', processFrame h order s b streamId g headers ends = .ok (b', s') := by
  refine C99_ok ops table hsyms h hi hr ho hg hb ht hid ends ?_
  rintro ⟨s1, i, p, e, hp, hn⟩
  rw [he p] at hp
  cases hp

/-- C99: ... and frames without repeated lines for which there is room. -/
theorem C99_room (hn : (frameLines headers).Nodup) (h1 : s.numVals + (frameLines headers).length ≤ s.maxVals)
    (h2 : s.stateSize + ((frameLines headers).map fun c => c.1.length + c.2.length).sum ≤ s.maxState) :
    ∃ b' s', processFrame h order s b streamId g headers ends = .ok (b', s') := by
  refine C99_ok ops table hsyms h hi hr ho hg hb ht hid ends ?_
  rintro ⟨s1, i, p, e, hp, hnone⟩
  obtain ⟨s1', i', e', S⟩ := beforeWriting_spec ho (reach_idle hr).1 hg headers
  rw [e] at e'
  cases e'
  have hsub : (i.clones ++ i.kvstos).Subperm (frameLines headers) := (S.once hn).subperm S.lines
  obtain ⟨l, hl1, hl2⟩ := hsub
  have n1 : (i.clones ++ i.kvstos).length ≤ (frameLines headers).length := hl1.length_eq ▸ hl2.length_le
  have n2 : lineBytes (i.clones ++ i.kvstos) ≤ lineBytes (frameLines headers) := by
    have e1 : lineBytes (i.clones ++ i.kvstos) = lineBytes l := ((hl1.map _).sum_eq).symm
    rw [e1]
    exact (hl2.map _).sum_le_sum (fun _ _ => Nat.zero_le _)
  obtain ⟨v, hv⟩ := has_iff.1 hp
  obtain ⟨f, hf⟩ := (reach_idle hr).1.inv.group_in g hv
  have h2' : s.stateSize + lineBytes (frameLines headers) ≤ s.maxState := h2
  obtain ⟨f', hf'⟩ := S.room (by omega) (by omega) p f hf
  rw [hf'] at hnone
  cases hnone

/-- C100: what is written is the boilerplate with length 0 and bit 15 of the stream id set, then the lines that
were not stored: those with a known name in blocks of clones, the others in blocks of KVStos.  Toggles are not
written at all. -/
theorem C100_wire_partial {b' : BB} {s' : Codec} (hp : processFrame h order s b streamId g headers ends = .ok (b', s')) :
    ∃ s1 i, beforeWriting order s g headers = .ok (s1, i) ∧
      HoldsC b' (putFrame (words h) t streamId ends
        (i.clones.map fun c => ((((s1.keymap.get? c.1).map CKey.idx).getD 0), c.2)) i.kvstos) ∧
      (∀ c ∈ i.clones, s1.keymap.has c.1 = true) ∧
      (∀ c ∈ i.clones ++ i.kvstos, c ∈ frameLines headers ∧ ¬ stored s c) ∧
      (∀ c ∈ frameLines headers, stored s c ∨ c ∈ i.clones ++ i.kvstos) := by
  by_cases hd : Dangles order s g headers
  · rw [frame_bad ho (reach_idle hr).1 hg b streamId ends hd] at hp
    cases hp
  · obtain ⟨s1, i, b1, s2, e1, S, e2, hh⟩ := frame_ok (coder_of hsyms hi) ho (reach_idle hr).1 hg hb ht hid ends hd
    rw [e2] at hp
    cases hp
    refine ⟨s1, i, e1, hh, S.clones, fun c hc => ⟨S.lines c hc, ?_⟩, fun c hc => S.sent c hc⟩
    rintro ⟨q, e, he, hpair⟩
    exact S.new c hc q e he hpair

/-- C100: of a frame with stored lines only the boilerplate is written, ... -/
theorem C100_silent (hst : ∀ c ∈ frameLines headers, stored s c) {b' : BB} {s' : Codec}
    (hp : processFrame h order s b streamId g headers ends = .ok (b', s')) :
    HoldsC b' (putFrame (words h) t streamId ends [] []) := by
  obtain ⟨s1, i, _, hh, _, hl, _⟩ := C100_wire_partial ops table hsyms h hi hr ho hg hb ht hid ends hp
  have hno : i.clones ++ i.kvstos = [] := List.eq_nil_iff_forall_not_mem.2 (fun c hc => (hl c hc).2 (hst c (hl c hc).1))
  obtain ⟨n1, n2⟩ := List.append_eq_nil_iff.1 hno
  rw [n1, n2] at hh
  exact hh

end

/-- C99: a stream id with bit 15 set is never written. -/
theorem C99_abort (h : Coder) (order : List Nat → List Nat) (s : Codec) (b : BB) (streamId g : Nat)
    (hid : streamId / 32768 % 2 = 1) (headers : List (Str × Str)) (ends : Bool) (r : BB × Codec) :
    processFrame h order s b streamId g headers ends ≠ .ok r := by
  unfold processFrame
  cases e1 : beforeWriting order s g headers with
  | error e => simp [bind, Except.bind]
  | ok x =>
    obtain ⟨s1, i⟩ := x
    cases e2 : preProcessToggles s1 i with
    | error e => simp [bind, Except.bind, serialize, e2]
    | ok y => simp [bind, Except.bind, serialize, e2, writeBoilerplate, writeStreamId, hid]

/-! ### Witnesses -/

/-- The state after a frame, if it can be written. -/
private def after (s : Codec) (g : Nat) (headers : List (Str × Str)) : Option Codec :=
  match beforeWriting id s g headers with
  | .ok (s1, _) =>
    match unPinLruEnd { s1 with frameCount := s1.frameCount + 1 } with
    | .ok s2 => some s2
    | .error _ => none
  | .error _ => none

private theorem after_eq {h : Coder} {s s' : Codec} {b b' : BB} {streamId g : Nat} {headers : List (Str × Str)} {ends : Bool}
    (hp : processFrame h id s b streamId g headers ends = .ok (b', s')) : after s g headers = some s' := by
  unfold processFrame at hp
  unfold after
  cases e1 : beforeWriting id s g headers with
  | error e => simp [e1, bind, Except.bind] at hp
  | ok x =>
    obtain ⟨s1, i⟩ := x
    cases e2 : serialize h s1 i b streamId ends with
    | error e => simp [e1, e2, bind, Except.bind] at hp
    | ok b1 =>
      cases e3 : unPinLruEnd { s1 with frameCount := s1.frameCount + 1 } with
      | error e => simp [e1, e2, e3, bind, Except.bind] at hp
      | ok s2 =>
        simp only [e1, e2, e3, bind, Except.bind, Except.ok.injEq, Prod.mk.injEq] at hp
        simp [e3, hp.2]

/-- The constructed encoder. -/
private theorem start_ok : ∃ s, Codec.start defaultHeaders = .ok s := by
  obtain ⟨s, e, _⟩ := start_spec defaultHeaders defaults_fit.1 defaults_fit.2
  exact ⟨s, e⟩

private def getPair : Str × Str := (b!":method", b!"get")

private def repeatCheck : Bool :=
  match Codec.start defaultHeaders with
  | .ok s => match after s 1 [getPair, getPair] with
    | some s1 => decide (shows s1 1 = [])
    | none => false
  | .error _ => false

/-- The two long paths of the witness for C99. -/
def longPath (c : Nat) : List (Str × Str) := [(b!":path", 47 :: List.replicate 500 c)]

private def dangleCheck : Bool :=
  match Codec.start defaultHeaders with
  | .ok s => match after (setMaxVals (setMaxStateSize s 131072) 1489) 1 (longPath 97) with
    | some s1 => match beforeWriting id s1 1 (longPath 98) with
      | .ok (s2, _) => (groupOf s1 1).any fun p => (groupOf s1 1).has p.1 && decide (s2.heap.get? p.1 = none)
      | .error _ => false
    | none => false
  | .error _ => false

private theorem repeat_ok : repeatCheck = true := by decide +kernel
private theorem dangle_ok : dangleCheck = true := by decide +kernel

section
variable {W : Type} (ops : Weights W) (table : FreqTable) (hsyms : table.map (·.1) = List.range 257) (h : Coder)
  (hi : init ops Coder.fresh table = .ok h) {b : BB} {t : Tape} (ht : HoldsC b t)
include hsyms hi ht

/-- C98 (the rest is false): a known line that occurs twice is toggled twice, and not shown. -/
theorem C98_repeat_false : ∃ s b' s', Reach h s ∧
    processFrame h id s b 1 1 [(b!":method", b!"get"), (b!":method", b!"get")] true = .ok (b', s') ∧ shows s' 1 = [] := by
  obtain ⟨s, hs⟩ := start_ok
  have hr : Reach h s := .start hs
  have hd : ∀ c ∈ frameLines [getPair, getPair], stored s c := by
    intro c hc
    have : c = getPair := by
      have e : frameLines [getPair, getPair] = [getPair, getPair] := by decide
      rw [e] at hc
      simpa using hc
    subst this
    obtain ⟨q, e, he, hp, _⟩ := C98_defaults hr getPair (by decide)
    exact ⟨q, e, he, hp⟩
  obtain ⟨b', s', e⟩ := C99_stored ops table hsyms h hi hr (order := id) (fun _ => List.Perm.refl _) (g := 1) (by decide)
    (headers := [getPair, getPair]) (by unfold Bytes; decide) ht (streamId := 1) (by decide) true hd
  refine ⟨s, b', s', hr, e, ?_⟩
  have hc := repeat_ok
  unfold repeatCheck at hc
  rw [hs] at hc
  simp only [after_eq e, decide_eq_true_eq] at hc
  exact hc

/-- C99 (with the limits of the sample program): a first frame with one long path is written; the second one, with
another path, reads the freed entry of the first. -/
theorem C99_uaf_false : ∃ s b' s', Codec.start defaultHeaders = .ok s ∧
    processFrame h id (setMaxVals (setMaxStateSize s 131072) 1489) b 1 1 (longPath 97) true = .ok (b', s') ∧
    ∀ b2, processFrame h id s' b2 1 1 (longPath 98) true = .error .index := by
  obtain ⟨s, hs⟩ := start_ok
  have hr : Reach h (setMaxVals (setMaxStateSize s 131072) 1489) := .maxVals _ (.maxState _ (.start hs))
  have hno : ∀ p, (groupOf (setMaxVals (setMaxStateSize s 131072) 1489) 1).has p = false := by
    have : (match Codec.start defaultHeaders with | .ok s => decide (s.groups = []) | .error _ => false) = true := by
      decide +kernel
    rw [hs] at this
    simp only [decide_eq_true_eq] at this
    intro p
    show ((s.groups.get? 1).getD []).has p = false
    rw [this]
    rfl
  obtain ⟨b', s', e⟩ := C99_first ops table hsyms h hi hr (order := id) (fun _ => List.Perm.refl _) (g := 1) (by decide)
    (headers := longPath 97) (by unfold Bytes; decide +kernel) ht (streamId := 1) (by decide) true hno
  refine ⟨s, b', s', hs, e, fun b2 => ?_⟩
  have hr' : Reach h s' := .frame hr (fun _ => List.Perm.refl _) (by decide) e
  refine C99_dangles h hr' (fun _ => List.Perm.refl _) (by decide) true ?_ b2 1
  have hc := dangle_ok
  unfold dangleCheck at hc
  rw [hs] at hc
  simp only [after_eq e] at hc
  cases e1 : beforeWriting id s' 1 (longPath 98) with
  | error e => simp [e1] at hc
  | ok x =>
    obtain ⟨s2, i⟩ := x
    simp only [e1, List.any_eq_true, Bool.and_eq_true, decide_eq_true_eq] at hc
    obtain ⟨p, _, h1, h2⟩ := hc
    exact ⟨s2, i, p.1, e1, h1, h2⟩

/-- C100 (the rest is false): from any state, two frames with different lines, all of them default headers, are
the same on the wire. -/
theorem C100_same_false {s : Codec} (hr : Reach h s) {order : List Nat → List Nat} (ho : ∀ l, (order l).Perm l) {g : Nat}
    (hg : 0 < g) {streamId : Nat} (hid : streamId / 32768 % 2 = 0) (ends : Bool) (m1 m2 : List (Str × Str))
    (h1 : ∀ c ∈ frameLines m1, c ∈ defaultHeaders) (h2 : ∀ c ∈ frameLines m2, c ∈ defaultHeaders)
    (y1 : Bytes m1) (y2 : Bytes m2) :
    ∃ b1 s1 b2 s2, processFrame h order s b streamId g m1 ends = .ok (b1, s1) ∧
      processFrame h order s b streamId g m2 ends = .ok (b2, s2) ∧ b1.bsa = b2.bsa := by
  have st : ∀ m : List (Str × Str), (∀ c ∈ frameLines m, c ∈ defaultHeaders) → ∀ c ∈ frameLines m, stored s c := by
    intro m hm c hc
    obtain ⟨q, e, he, hp, _⟩ := C98_defaults hr c (hm c hc)
    exact ⟨q, e, he, hp⟩
  obtain ⟨b1, s1, e1⟩ := C99_stored ops table hsyms h hi hr ho hg y1 ht hid ends (st m1 h1)
  obtain ⟨b2, s2, e2⟩ := C99_stored ops table hsyms h hi hr ho hg y2 ht hid ends (st m2 h2)
  have w1 := C100_silent ops table hsyms h hi hr ho hg y1 ht hid ends (st m1 h1) e1
  have w2 := C100_silent ops table hsyms h hi hr ho hg y2 ht hid ends (st m2 h2) e2
  exact ⟨b1, s1, b2, s2, e1, e2, by rw [w1.packed, w2.packed]⟩

end

/-- Two such messages: a `get` and a `200`. -/
example : (∀ c ∈ frameLines [(b!":method", b!"get")], c ∈ defaultHeaders) ∧
    (∀ c ∈ frameLines [(b!":status", b!"200")], c ∈ defaultHeaders) := by decide

/-- What is written then. -/
example : bitsOf [0, 0, 1, 1, 128, 0, 0, 8] = (putFrame [] ⟨[], 0⟩ 1 true [] []).bits := by
  simp [putFrame, putOps, parts]
  decide

/-- Lines of a cookie. -/
example : frameLines [(b!":path", b!"/a"), (b!"cookie", b!"a=b; c=d;  e")] =
    [(b!":path", b!"/a"), (b!"cookie", b!"a=b"), (b!"cookie", b!"c=d"), (b!"cookie", b!"e")] := by decide

/-- Frames with new lines, from the constructed state: new name, new value, crumbs, a repeated one. -/
private def sampleFrames : List (List (Str × Str)) :=
  [[(b!":path", b!"/a"), (b!"cookie", b!"a=b; c=d"), (b!"x", b!"y")], [(b!":path", b!"/b"), (b!"cookie", b!"c=d; a=b"), (b!"x", b!"y")]]

example : (match Codec.start defaultHeaders with
  | .ok s => match after s 1 (sampleFrames.getD 0 []) with
    | some s1 => match after s1 1 (sampleFrames.getD 1 []) with
      | some s2 => decide ((shows s1 1).length = 4 ∧ (shows s2 1).length = 4 ∧ (b!":path", b!"/b") ∈ shows s2 1 ∧
          (b!":path", b!"/a") ∉ shows s2 1 ∧ s2.numVals = 69)
      | none => false
    | none => false
  | .error _ => false) = true := by decide +kernel

end Verif.Props
