import Verif.Delta1.Size
import Verif.Props.Delta1Groups
/-
Property theorems about the size of a frame of delta, the first compressor (C140).
-/
namespace Verif.Props
open Verif Verif.Bits Verif.Huff Verif.Delta1 Verif.Lib Verif.Lib.Spec
open Verif.Delta2 (headersSet)

/-! ### C140 -/

/-- The number of bits of the code word of a symbol. -/
def wordLen (h : Huffman) (c : Nat) : Nat := ((h.codeTable[c]?).map (·.2)).getD 0

/-- The number of bytes of a text: the words of its characters and of the end, symbol 256, in whole bytes. -/
def textCost (h : Huffman) (s : Str) : Nat := (((s ++ [256]).map (wordLen h)).sum + 7) / 8

/-- What a header costs that is sent in full: both texts, or, if there is an entry with its name, a reference of two bytes and the
value. -/
def fullCost (h : Huffman) (x : Hdr) : Nat := max 2 (textCost h x.1) + textCost h x.2

theorem wordLen_eq {h : Huffman} {codes : List (List Bool)} (hc : Codes h codes) (c : Nat) :
    wordLen h c = ((codes[c]?).getD []).length := by
  simp only [wordLen, hc.table, List.getElem?_map]
  cases codes[c]? <;> rfl

theorem textCost_eq {h : Huffman} {codes : List (List Bool)} (hc : Codes h codes) (s : Str) : textCost h s = strBytes codes s := by
  rw [strBytes_eq, textCost, textBits, List.length_flatMap, funext (wordLen_eq hc)]

theorem fullCost_eq {h : Huffman} {codes : List (List Bool)} (hc : Codes h codes) (x : Hdr) :
    fullCost h x = Delta1.hdrBytes codes x := by
  simp only [fullCost, Delta1.hdrBytes, textCost_eq hc]

/-- C140, from above.  Whatever was sent before, a frame has at most 19 bytes, two for each entry that is to be added to the group of
the host or to be removed from it, and the cost of each header that is sent in full: one that has no entry, a `:path` or a
`referer`. -/
theorem C140_most (u : Delta1.Setup) (hu : Processor1 u) (c0 : Delta1.Compressor) (d : Delta1.Codec) (hf : Fresh1 u c0 d)
    (before : List Delta1.Message) (hb : ∀ m ∈ before, Delta1.MessageOk u m) (c : Delta1.Compressor) (blobs : List Str)
    (hc : Delta1.compressAll u before c0 = .ok (c, blobs)) (m : Delta1.Message) (hm : Delta1.MessageOk u m) (c' : Delta1.Compressor)
    (blob : Str) (hx : Delta1.compress u c m = .ok (c', blob)) :
    ∃ gid, c'.hosts.get? (u.norm m.host) = some gid ∧ ∀ tog full : List Hdr,
      (∀ x, EntryFor c.codec x → ¬ (GroupHas1 c.codec gid x ↔ Sends m.headers x) → x ∈ tog) →
      (∀ x, Sends m.headers x → (x.1 = b!":path" ∨ x.1 = b!"referer" ∨ ¬ EntryFor c.codec x) → x ∈ full) →
      19 + 2 * tog.length + (full.map (fullCost u.huffman)).sum ≤ 65536 →
      blob.length ≤ 19 + 2 * tog.length + (full.map (fullCost u.huffman)).sum := by
  obtain ⟨codes, hk, h257⟩ := hu.coder.codes
  have hr := session_ready hu.order hk h257 before hb (ready_fresh hf) hc
  obtain ⟨-, gid, e1, e2, -⟩ := compress_groups hu.order hk h257 hr hm hx
  refine ⟨gid, e2, fun tog full ht hn hfit => ?_⟩
  have e : full.map (fullCost u.huffman) = full.map (Delta1.hdrBytes codes) := List.map_congr_left fun x _ => fullCost_eq hk x
  rw [e] at hfit ⊢
  refine compress_size hu.order hk h257 hr hm hx tog full (fun x h1 h2 => ?_) (fun x h1 h2 => ?_) hfit
  · refine ht x (entryFor_iff.2 h1) ?_
    rw [groupHas1_iff hr.inv, sends_iff, e1]
    exact h2
  · refine hn x (sends_iff.2 h1) ?_
    rw [entryFor_iff]
    rcases h2 with h2 | h2
    · simp only [isEref, decide_eq_true_eq] at h2
      rcases h2 with h2 | h2
      · exact .inl h2
      · exact .inr (.inl h2)
    · exact .inr (.inr h2)

/-- C140, from below.  Whatever was sent before, a frame has at least 9 bytes and the values of the headers of the message that have no
entry or are a `:path` or `referer`, however often they were sent. -/
theorem C140_least (u : Delta1.Setup) (hu : Processor1 u) (c0 : Delta1.Compressor) (d : Delta1.Codec) (hf : Fresh1 u c0 d)
    (before : List Delta1.Message) (hb : ∀ m ∈ before, Delta1.MessageOk u m) (c : Delta1.Compressor) (blobs : List Str)
    (hc : Delta1.compressAll u before c0 = .ok (c, blobs)) (m : Delta1.Message) (hm : Delta1.MessageOk u m) (c' : Delta1.Compressor)
    (blob : Str) (hx : Delta1.compress u c m = .ok (c', blob)) (full : List Hdr) (hnd : full.Nodup)
    (hfull : ∀ x ∈ full, Sends m.headers x ∧ (x.1 = b!":path" ∨ x.1 = b!"referer" ∨ ¬ EntryFor c.codec x)) :
    9 + (full.map fun x => textCost u.huffman x.2).sum ≤ blob.length := by
  obtain ⟨codes, hk, h257⟩ := hu.coder.codes
  have hr := session_ready hu.order hk h257 before hb (ready_fresh hf) hc
  simp only [textCost_eq hk]
  refine compress_least hu.order hk h257 hr hm hx full hnd (fun x h => ?_)
  obtain ⟨h1, h2⟩ := hfull x h
  refine ⟨sends_iff.1 h1, ?_⟩
  rw [entryFor_iff] at h2
  rcases h2 with h2 | h2 | h2
  · exact .inl (by simp only [isEref, decide_eq_true_eq]; exact .inl h2)
  · exact .inl (by simp only [isEref, decide_eq_true_eq]; exact .inr h2)
  · exact .inr h2

/-- C140.  With the shipped codes no text of bytes takes more than 25 bits for each character and the end. -/
theorem C140_text (table : FreqTable) (ht : table = oldRequestTable ∨ table = oldResponseTable) (h : Huffman)
    (hh : Delta1.huffman table = .ok h) (s : Str) (hs : ∀ c ∈ s, c < 256) : textCost h s ≤ (25 * (s.length + 1) + 7) / 8 := by
  have hw : ∀ c < 257, wordLen h c ≤ 25 := by
    have e : (Delta1.huffman table).toOption.map (fun h => (List.range 257).all fun c => decide (wordLen h c ≤ 25)) = some true := by
      rcases ht with rfl | rfl <;> decide +kernel
    rw [hh] at e
    simp only [Except.toOption, Option.map_some, Option.some.injEq, List.all_eq_true, decide_eq_true_eq, List.mem_range] at e
    exact e
  have : ((s ++ [256]).map (wordLen h)).sum ≤ 25 * (s.length + 1) := by
    have hl : s.length + 1 = (s ++ [256]).length := by simp
    have hall : ∀ c ∈ s ++ [256], wordLen h c ≤ 25 := by
      intro c hc
      rcases List.mem_append.1 hc with h1 | h1
      · exact hw c (by have := hs c h1; omega)
      · rw [List.mem_singleton] at h1
        exact hw c (by omega)
    rw [hl]
    generalize s ++ [256] = l at hall
    induction l with
    | nil => simp
    | cons a l ih =>
      have h1 := hall a (by simp)
      have h2 := ih (fun c hc => hall c (by simp [hc]))
      simp only [List.map_cons, List.sum_cons, List.length_cons]
      omega
  unfold textCost
  omega

/-- A text of 8 bytes 255 takes 25 bytes; the bound is 29. -/
example : (Delta1.huffman oldResponseTable).toOption.map (fun h => textCost h (List.replicate 8 255)) = some 25 := by decide +kernel

/-- Printable characters that the code for requests gives three bytes to. -/
def rare : Str := b!"\"#<>@\\^`"

/-- C140.  Compression can treble a message: with the code for requests each of the characters ``"#<>@\^` `` in a `:path` takes three
bytes, in every message, however often the same `:path` was sent. -/
theorem C140_rare (u : Delta1.Setup) (hu : Processor1 u) (hh : Delta1.huffman oldRequestTable = .ok u.huffman) (c0 : Delta1.Compressor)
    (d : Delta1.Codec) (hf : Fresh1 u c0 d) (before : List Delta1.Message) (hb : ∀ m ∈ before, Delta1.MessageOk u m)
    (c : Delta1.Compressor) (blobs : List Str) (hc : Delta1.compressAll u before c0 = .ok (c, blobs)) (m : Delta1.Message)
    (hm : Delta1.MessageOk u m) (c' : Delta1.Compressor) (blob : Str) (hx : Delta1.compress u c m = .ok (c', blob)) (path : Str)
    (hp : Sends m.headers (b!":path", path)) : 9 + 3 * path.countP (fun c => decide (c ∈ rare)) ≤ blob.length := by
  have h1 := C140_least u hu c0 d hf before hb c blobs hc m hm c' blob hx [(b!":path", path)] (by simp) (by
    intro x hx
    rw [List.mem_singleton] at hx
    subst hx
    exact ⟨hp, .inl rfl⟩)
  have hw : ∀ c ∈ rare, 24 ≤ wordLen u.huffman c := by
    have e : (Delta1.huffman oldRequestTable).toOption.map (fun h => rare.all fun c => decide (24 ≤ wordLen h c)) = some true := by
      decide +kernel
    rw [hh] at e
    simp only [Except.toOption, Option.map_some, Option.some.injEq, List.all_eq_true, decide_eq_true_eq] at e
    exact e
  have h2 : 24 * path.countP (fun c => decide (c ∈ rare)) ≤ (path.map (wordLen u.huffman)).sum := by
    clear h1 hp
    induction path with
    | nil => simp
    | cons a l ih =>
      rw [List.countP_cons]
      simp only [List.map_cons, List.sum_cons]
      split
      · rename_i ha
        have := hw a (of_decide_eq_true ha)
        omega
      · omega
  simp only [List.map_cons, List.map_nil, List.sum_cons, List.sum_nil, textCost, List.map_append, List.sum_append] at h1
  omega

/-- The length of the last frame, that of the text of the message, the entries and groups before, the group of the host and the bound
of `C140_most` if these headers are sent in full. -/
def runLast1 (mb me : Int) (before : List Delta1.Message) (m : Delta1.Message) (full : List Hdr) :
    Py ((Nat × Nat) × List (Nat × Hdr) × List (Nat × List Nat) × Option Nat × Nat) := do
  let h ← Delta1.huffman oldRequestTable
  let d ← Delta1.Codec.init (setup1 h mb me).staticKey (setup1 h mb me).cfg
  let (c, _) ← Delta1.compressAll (setup1 h mb me) before { codec := d }
  let (c', b) ← Delta1.compress (setup1 h mb me) c m
  pure ((b.length, (m.headers.map fun x => x.1.length + x.2.length).sum), c.codec.store.lru.map fun ve => (ve.idx, ve.key, ve.val),
    c.codec.groups, c'.hosts.get? m.host, 19 + (full.map (fullCost h)).sum)

/-- A request for `/@@@@@@@@`. -/
def atPath : Delta1.Message := ⟨[(b!":path", b!"/@@@@@@@@"), (b!"user-agent", b!"m")], b!"a", plain1⟩

theorem atPath_ok {u : Delta1.Setup} (hu : u.staticKey = b!"clone") : Delta1.MessageOk u atPath :=
  ⟨plain1_ok, by change ∀ kv ∈ [(b!":path", b!"/@@@@@@@@"), (b!"user-agent", b!"m")], _; decide +kernel,
    by rw [hu]; change ∀ kv ∈ [(b!":path", b!"/@@@@@@@@"), (b!"user-agent", b!"m")], _; decide +kernel,
    by change (headersSet [(b!":path", b!"/@@@@@@@@"), (b!"user-agent", b!"m")]).length ≤ 128; decide +kernel⟩

local instance decLast1 : DecidableEq (List (Nat × Hdr)) := inferInstance
local instance decLast2 : DecidableEq (List (Nat × List Nat) × Option Nat × Nat) := inferInstance
local instance decLast3 : DecidableEq ((Nat × Nat) × List (Nat × Hdr) × List (Nat × List Nat) × Option Nat × Nat) := inferInstance

/-- The same request for the third time: the frame needs 42 bytes for 25 bytes of text.  `C140_most` gives at most 50 and `C140_rare` at
least 33. -/
theorem atPath_run : (runLast1 16384 4096 [atPath, atPath] atPath [(b!":path", b!"/@@@@@@@@")]).toOption =
    some ((42, 25), [(68, b!"user-agent", b!"m")], [(1, [68])], some 1, 50) := by decide +kernel

/-- All hypotheses of `C140_most`, `C140_least` and `C140_rare` hold of it. -/
example : ∃ u c0 d c blobs c' blob, Processor1 u ∧ Delta1.huffman oldRequestTable = .ok u.huffman ∧ Fresh1 u c0 d ∧
    (∀ m ∈ [atPath, atPath], Delta1.MessageOk u m) ∧ Delta1.compressAll u [atPath, atPath] c0 = .ok (c, blobs) ∧
    Delta1.MessageOk u atPath ∧ Delta1.compress u c atPath = .ok (c', blob) ∧ c'.hosts.get? (u.norm atPath.host) = some 1 ∧
    (∀ x, EntryFor c.codec x → (GroupHas1 c.codec 1 x ↔ Sends atPath.headers x)) ∧
    (∀ x, Sends atPath.headers x → (x.1 = b!":path" ∨ x.1 = b!"referer" ∨ ¬ EntryFor c.codec x) → x ∈ [(b!":path", b!"/@@@@@@@@")]) ∧
    Sends atPath.headers (b!":path", b!"/@@@@@@@@") ∧ b!"/@@@@@@@@".countP (fun c => decide (c ∈ rare)) = 8 ∧ blob.length = 42 ∧
    19 + ([(b!":path", b!"/@@@@@@@@")].map (fullCost u.huffman)).sum = 50 := by
  obtain ⟨hu, e, hc⟩ := coder1_shipped oldRequestTable (.inl rfl)
  have h := atPath_run
  simp only [runLast1, bind, Except.bind, e, codec_init] at h
  split at h
  · cases h
  rename_i v hv
  obtain ⟨c, blobs⟩ := v
  simp only at h
  split at h
  · cases h
  rename_i v1 hv1
  obtain ⟨c', b⟩ := v1
  simp only [pure, Except.pure, Except.toOption, Option.some.injEq, Prod.mk.injEq] at h
  obtain ⟨⟨h1, -⟩, h2, h3, h4, h5⟩ := h
  have hset : headersSet atPath.headers = [(b!":path", b!"/@@@@@@@@"), (b!"user-agent", b!"m")] := by decide +kernel
  have hl : ∀ ve ∈ c.codec.store.lru, (ve.idx, ve.key, ve.val) = (68, b!"user-agent", b!"m") := by
    intro ve hve
    have := List.mem_map_of_mem (f := fun ve : VE => (ve.idx, ve.key, ve.val)) hve
    rw [h2, List.mem_singleton] at this
    exact this
  have hm : ∃ ve ∈ c.codec.store.lru, (ve.idx, ve.key, ve.val) = (68, b!"user-agent", b!"m") := by
    have : (68, b!"user-agent", b!"m") ∈ c.codec.store.lru.map (fun ve : VE => (ve.idx, ve.key, ve.val)) := by
      rw [h2]; simp
    obtain ⟨ve, k1, k2⟩ := List.mem_map.1 this
    exact ⟨ve, k1, k2⟩
  refine ⟨setup1 hu 16384 4096, _, _, c, blobs, c', b, setup1_ok hc _ _, e, ⟨codec_init _ _, rfl⟩, ?_, hv, atPath_ok rfl, hv1, h4, ?_, ?_, ?_,
    by decide +kernel, h1, h5⟩
  · intro m hm
    simp only [List.mem_cons, List.not_mem_nil, or_false, or_self] at hm
    subst hm
    exact atPath_ok rfl
  · rintro x ⟨ve, hve, k1, k2⟩
    have k3 := hl ve hve
    simp only [Prod.mk.injEq] at k3
    rw [sends_iff, hset]
    refine iff_of_true ⟨[68], by rw [h3]; rfl, ve, hve, by rw [k3.1]; simp, k1, k2⟩ ?_
    have : x = (b!"user-agent", b!"m") := Prod.ext (k1.symm.trans k3.2.1) (k2.symm.trans k3.2.2)
    rw [this]
    simp
  · intro x hx hh
    rw [sends_iff, hset] at hx
    rcases List.mem_cons.1 hx with rfl | hx
    · simp
    · rw [List.mem_singleton] at hx
      subst hx
      rcases hh with hh | hh | hh
      · exact absurd hh (by decide)
      · exact absurd hh (by decide)
      · obtain ⟨ve, k1, k2⟩ := hm
        simp only [Prod.mk.injEq] at k2
        exact absurd ⟨ve, k1, k2.2.1, k2.2.2⟩ hh
  · rw [sends_iff, hset]
    simp

end Verif.Props
