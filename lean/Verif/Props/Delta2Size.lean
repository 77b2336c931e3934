import Verif.Delta2.Size
import Verif.Props.Delta1Size
/-
Property theorems about the size of a frame of delta2 (C141).
-/
namespace Verif.Props
open Verif Verif.Huff Verif.Delta2 Verif.Lib Verif.Lib.Spec

/-! ### C141 -/

/-- The bits that an index takes at most, by the way integers are packed. -/
def refBits : IntPack → Nat
  | .int8 => 8
  | .int16 => 16
  | .varint => 28

/-- The number of bits of a text: the words of its characters and of the end, symbol 256. -/
def textWords (h : Huffman) (s : Str) : Nat := ((s ++ [256]).map (wordLen h)).sum

/-- The bits of a header that has no entry, at most: the byte before it, its name or the index of an entry with this name, and its
value; texts are filled up to whole bytes. -/
def newCost (u : Setup) (x : Hdr) : Nat := 8 + max (refBits u.cfg.ints) (textWords u.huffman x.1 + 7) + (textWords u.huffman x.2 + 7)

/-- The group has the header `x` by its index `i`. -/
def GroupAt (s : Codec) (gid : Nat) (i : Int) (x : Hdr) : Prop :=
  i ∈ s.group gid ∧ ∃ e, lookupFromIdx s.storage i = .ok e ∧ (e.kv.key, e.kv.val) = x

theorem groupAt_iff {cfg : Config} {s : Codec} (h : CodecOk cfg s) (gid : Nat) (i : Int) (x : Hdr) :
    GroupAt s gid i x ↔ i ∈ s.group gid ∧ kvAt s.storage i = x := by
  constructor
  · rintro ⟨h1, e, h2, rfl⟩
    exact ⟨h1, kvAt_ok h2⟩
  · rintro ⟨h1, rfl⟩
    obtain ⟨e, he⟩ := lookup_live h.storage ((h.group gid).2 i h1)
    exact ⟨h1, e, he, (kvAt_ok he).symm⟩

theorem textWords_eq {h : Huffman} {codes : List (List Bool)} (hc : Codes h codes) (s : Str) : textWords h s = textLen codes s := by
  rw [textWords, textLen, textBits, List.length_flatMap, funext (wordLen_eq hc)]

/-- One message. -/
theorem compress_bits {u : Setup} (hu : Processor u) {c : Compressor} (h : CodecOk u.cfg c.codec) (hk : HostsOk c)
    {m : Delta2.Message} (hm : MessageOk m) {c' : Compressor} {blob : Str} (hc : compress u m.orders c m.headers m.host = .ok (c', blob)) :
    ∃ codes bits, Codes u.huffman codes ∧ 9 + (bits + 7) / 8 ≤ blob.length ∧ (bits ≤ 8 * 65527 → blob.length = 9 + (bits + 7) / 8) ∧
      (∀ (on new : List Hdr) (off : List Int),
        (∀ x, x ∈ headersSet m.headers → InTable c.codec.storage x →
          (∀ i ∈ c.codec.group (groupOf u c m.host).2, kvAt c.codec.storage i ≠ x) → x ∈ on) →
        (∀ i ∈ c.codec.group (groupOf u c m.host).2, (kvAt c.codec.storage i ∉ headersSet m.headers ∨
          ∃ j ∈ c.codec.group (groupOf u c m.host).2, j ≠ i ∧ kvAt c.codec.storage j = kvAt c.codec.storage i) → i ∈ off) →
        (∀ x, x ∈ headersSet m.headers → ¬ InTable c.codec.storage x → x ∈ new) →
        bits ≤ (8 + idxBits u.cfg.ints) * (on.length + off.length) + (new.map (newMost u.cfg.ints codes)).sum) ∧
      ∀ new : List Hdr, new.Nodup → (∀ x ∈ new, x ∈ headersSet m.headers ∧ ¬ InTable c.codec.storage x) →
        (new.map fun x => textLen codes x.2).sum ≤ bits := by
  obtain ⟨k1, k2, k3⟩ := groupOf_spec u hk m.host
  generalize hg : groupOf u c m.host = r at k1 k2 k3 ⊢
  have hcfg := processor_ok hu
  obtain ⟨codes, hcodes⟩ := hu.coder.codes
  have hm' := h.findOrMake r.2
  have hst := findOrMake_storage c.codec r.2
  have hgr := findOrMake_group c.codec r.2
  obtain ⟨gs0, e1, hgood, hrun, _⟩ := makeInstructions_spec hcfg.high hm.orders hm' m.headers (headersSet_bytes hm.bytes) r.2
  rw [hst] at hgood
  obtain ⟨gs', e2, hg2, hback⟩ := hgToLru_spec hcfg h.storage gs0 hgood
  have hsz := message_size hcfg codes hm.orders hm' m.headers (headersSet_bytes hm.bytes) r.2 e1 (by rw [hst]; exact e2)
  rw [hst, hgr] at hsz
  simp only [compress, hg, k2, makeOperations, bind, Except.bind, e1, hst, e2, pure, Except.pure] at hc
  split at hc
  · cases hc
  · rename_i q hq
    split at hq
    · cases hq
    · cases hq
      simp only at hc
      split at hc
      · cases hc
      · rename_i b hb
        cases hc
        obtain ⟨bytes, w1, _, w2, _⟩ := wire_spec (p := u.packing) hcodes gs' hg2 r.2 k3
        rw [hb] at w1
        cases w1
        obtain ⟨hh, hh1, hh2⟩ := hcodes.ex
        cases hh1
        exact ⟨codes, _, hh2, w2, wire_len (p := u.packing) hcodes gs' hg2 r.2 k3 hb, hsz⟩

/-- C141, from above.  Whatever was sent before, the payload of a frame has at most a byte and an index for each header of the message
that has an entry and is not in the group of the host, and for each entry of the group that is not in the message or is there twice,
and the cost of each header that has no entry. -/
theorem C141_most (u : Setup) (hu : Processor u) (c0 : Compressor) (d : Codec) (hf : Fresh u c0 d) (before : List Delta2.Message)
    (hb : ∀ m ∈ before, MessageOk m) (c : Compressor) (blobs : List Str) (hc : compressAll u before c0 = .ok (c, blobs))
    (m : Delta2.Message) (hm : MessageOk m) (c' : Compressor) (blob : Str)
    (hx : compress u m.orders c m.headers m.host = .ok (c', blob)) :
    ∃ gid, c'.hosts.get? (u.norm m.host) = some gid ∧ ∀ (on new : List Hdr) (off : List Int),
      (∀ x, Sends m.headers x → TableHas c.codec.storage x → (¬ ∃ i, GroupAt c.codec gid i x) → x ∈ on) →
      (∀ i x, GroupAt c.codec gid i x → (¬ Sends m.headers x ∨ ∃ j, j ≠ i ∧ GroupAt c.codec gid j x) → i ∈ off) →
      (∀ x, Sends m.headers x → ¬ TableHas c.codec.storage x → x ∈ new) →
      (8 + refBits u.cfg.ints) * (on.length + off.length) + (new.map (newCost u)).sum ≤ 8 * 65527 →
      blob.length ≤ 9 + ((8 + refBits u.cfg.ints) * (on.length + off.length) + (new.map (newCost u)).sum + 7) / 8 := by
  obtain ⟨h1, h2, _⟩ := reach_ok hu hf before hb hc
  obtain ⟨codes, bits, hk, _, hlen, hmost, _⟩ := compress_bits hu h1 h2 hm hx
  refine ⟨(groupOf u c m.host).2, ?_, fun on new off a1 a2 a3 hfit => ?_⟩
  · have hg : (groupOf u c m.host).1.hosts.get? (u.norm m.host) = some (groupOf u c m.host).2 := by
      unfold Delta2.groupOf
      split
      · rename_i gid hg
        exact hg
      · simp only [Dict.get?_set, if_true]
    simp only [compress, bind, Except.bind, pure, Except.pure] at hx
    split at hx
    · cases hx
    · split at hx
      · cases hx
      · cases hx
        exact hg
  · have e1 : refBits u.cfg.ints = idxBits u.cfg.ints := by cases u.cfg.ints <;> rfl
    have e2 : newCost u = newMost u.cfg.ints codes := by
      funext x
      simp only [newCost, newMost, textWords_eq hk, e1]
      omega
    rw [e1, e2] at hfit ⊢
    have := hmost on new off (fun x b1 b2 b3 => a1 x (sends_iff.2 b1) (tableHas_iff.2 b2) (by
        rintro ⟨i, hi⟩
        obtain ⟨i1, i2⟩ := (groupAt_iff h1 _ _ _).1 hi
        exact b3 i i1 i2))
      (fun i b1 b2 => a2 i (kvAt c.codec.storage i) ((groupAt_iff h1 _ _ _).2 ⟨b1, rfl⟩) (by
        rcases b2 with b2 | ⟨j, b2, b3, b4⟩
        · exact .inl fun hc => b2 (sends_iff.1 hc)
        · exact .inr ⟨j, b3, (groupAt_iff h1 _ _ _).2 ⟨b2, b4⟩⟩))
      (fun x b1 b2 => a3 x (sends_iff.2 b1) (fun hc => b2 (tableHas_iff.1 hc)))
    generalize (8 + idxBits u.cfg.ints) * (on.length + off.length) + (new.map (newMost u.cfg.ints codes)).sum = z at this hfit ⊢
    rw [hlen (by omega)]
    omega

/-- C141, from below.  Whatever was sent before, a frame has 9 bytes and at least the words of the values of the headers of the message
that have no entry. -/
theorem C141_least (u : Setup) (hu : Processor u) (c0 : Compressor) (d : Codec) (hf : Fresh u c0 d) (before : List Delta2.Message)
    (hb : ∀ m ∈ before, MessageOk m) (c : Compressor) (blobs : List Str) (hc : compressAll u before c0 = .ok (c, blobs))
    (m : Delta2.Message) (hm : MessageOk m) (c' : Compressor) (blob : Str)
    (hx : compress u m.orders c m.headers m.host = .ok (c', blob)) (new : List Hdr) (hnd : new.Nodup)
    (hnew : ∀ x ∈ new, Sends m.headers x ∧ ¬ TableHas c.codec.storage x) :
    9 + ((new.map fun x => textWords u.huffman x.2).sum + 7) / 8 ≤ blob.length := by
  obtain ⟨h1, h2, _⟩ := reach_ok hu hf before hb hc
  obtain ⟨codes, bits, hk, hlen, _, _, hleast⟩ := compress_bits hu h1 h2 hm hx
  have := hleast new hnd (fun x h => ⟨sends_iff.1 (hnew x h).1, fun hc => (hnew x h).2 (tableHas_iff.2 hc)⟩)
  simp only [textWords_eq hk]
  omega

/-- C141.  A `:path` other than "/" is sent in full in every message, however often it was sent before. -/
theorem C141_path (u : Setup) (hu : Processor u) (c0 : Compressor) (d : Codec) (hf : Fresh u c0 d) (before : List Delta2.Message)
    (hb : ∀ m ∈ before, MessageOk m) (c : Compressor) (blobs : List Str) (hc : compressAll u before c0 = .ok (c, blobs))
    (m : Delta2.Message) (hm : MessageOk m) (c' : Compressor) (blob : Str)
    (hx : compress u m.orders c m.headers m.host = .ok (c', blob)) (path : Str) (hp : Sends m.headers (b!":path", path))
    (hne : path ≠ b!"/") : 9 + (textWords u.huffman path + 7) / 8 ≤ blob.length := by
  obtain ⟨h1, h2, h3⟩ := reach_ok hu hf before hb hc
  have := C141_least u hu c0 d hf before hb c blobs hc m hm c' blob hx [(b!":path", path)] (by simp) (by
    intro x hx
    rw [List.mem_singleton] at hx
    subst hx
    refine ⟨hp, fun ht => ?_⟩
    obtain ⟨e, he, hek⟩ := tableHas_iff.1 ht
    have hpl : PlainPath (e.kv.key, e.kv.val) := by
      rcases List.mem_append.1 he with he | he
      · exact static_path h1.storage he
      · exact h3 e he
    rw [hek] at hpl
    exact hne (hpl rfl))
  simpa using this

/-! ### The message of C136 -/

/-- For the message number `i` of `fourTimes`: the bytes of its frame; the lengths of `on`, `off`, and the costs of `new` and the words
of the values in `new`, all as small as the theorems allow. -/
def sizeAt (i : Nat) (path : Str) : Py (Nat × Nat × Nat × Nat × Nat) := do
  let cfg ← Config.ofParams (fun _ => .error .value) []
  let h ← huffman exact cpyOrder requestTable
  let d ← Codec.init cfg
  let (c, _) ← compressAll ⟨cfg, h, id⟩ ((fourTimes path).take i) { codec := d }
  match (fourTimes path)[i]? with
  | none => .error .index
  | some m =>
    let (_, blob) ← compress ⟨cfg, h, id⟩ m.orders c m.headers m.host
    let has (x : Hdr) := (c.codec.storage.static.ring ++ c.codec.storage.lru.ring).any fun e => e.kv.key == x.1 && e.kv.val == x.2
    let grp := (c.codec.group 1).map (kvAt c.codec.storage)
    let on := (headersSet m.headers).filter fun x => has x && !grp.contains x
    let off := grp.filter fun x => !(headersSet m.headers).contains x || decide (1 < grp.count x)
    let new := (headersSet m.headers).filter fun x => !has x
    pure (blob.length, on.length, off.length, (new.map (newCost ⟨cfg, h, id⟩)).sum, (new.map fun x => textWords h x.2).sum)

/-- With the path "/b" the second message turns on three entries and sends the path: 16 bytes, between 9 + 2 and 9 + 23. -/
example : ((sizeAt 1 b!"/b").toOption == some (16, 3, 0, 74, 16)) = true := by decide +kernel

/-- The hypotheses hold of the session, for "/b" as well. -/
example : ∃ u, Processor u ∧ ∃ c0 d, Fresh u c0 d ∧ ∀ m ∈ fourTimes b!"/b", MessageOk m := by
  obtain ⟨h, _, hc⟩ := coder_shipped requestTable (.inl rfl)
  obtain ⟨c0, d, hf⟩ := C28_fresh ⟨⟨4096, 190, 255, .varint, false, false, false, false, true⟩, h, id⟩
  refine ⟨_, ⟨⟨fun _ => .error .value, [], rfl⟩, hc⟩, c0, d, hf, ?_⟩
  intro m hm
  simp only [fourTimes, List.mem_cons, List.not_mem_nil, or_false] at hm
  rcases hm with rfl | rfl | rfl | rfl
  · exact ⟨plainOrders_ok, by decide +kernel⟩
  · exact ⟨reverseOrders_ok, by decide +kernel⟩
  · exact ⟨plainOrders_ok, by decide +kernel⟩
  · exact ⟨reverseOrders_ok, by decide +kernel⟩

end Verif.Props
