import Verif.Cpp.CodecWhole
import Verif.Cpp.Text
import Verif.Cpp.WireSpec
/-
What the C++ encoder writes.
-/
namespace Verif.Cpp
open Verif Verif.Huff
open Verif.Bits.Spec (Tape bitsOf padZeros)

/-! ### Toggles -/

theorem addIdxs_nil (l : List Nat) : addIdxs l [] [] = .ok ([], []) := by
  induction l with
  | nil => rfl
  | cons x l ih => exact ih

theorem toggleIdxs_ok (s : Codec) (ps : List Nat) (h : ∀ p ∈ ps, ∃ e, s.heap.get? p = some e) :
    ∃ l, toggleIdxs s ps = .ok l := by
  induction ps with
  | nil => exact ⟨[], rfl⟩
  | cons p ps ih =>
    obtain ⟨e, he⟩ := h p (by simp)
    obtain ⟨l, hl⟩ := ih (fun q hq => h q (by simp [hq]))
    refine ⟨e.lruIdx :: l, ?_⟩
    simp only [toggleIdxs, entryAt, he, bind, Except.bind, hl]

theorem toggleIdxs_bad (s : Codec) (ps : List Nat) (h : ∃ p ∈ ps, s.heap.get? p = none) :
    toggleIdxs s ps = .error .index := by
  induction ps with
  | nil => obtain ⟨p, hp, _⟩ := h; cases hp
  | cons p ps ih =>
    cases he : s.heap.get? p with
    | none => simp only [toggleIdxs, entryAt, he, bind, Except.bind]
    | some e =>
      have : ∃ q ∈ ps, s.heap.get? q = none := by
        obtain ⟨q, hq, hn⟩ := h
        rcases List.mem_cons.1 hq with rfl | hq
        · rw [he] at hn; cases hn
        · exact ⟨q, hq, hn⟩
      simp only [toggleIdxs, entryAt, he, bind, Except.bind, ih this]

theorem preProcess_ok {s : Codec} {i : CInstrs} (h1 : ∀ p ∈ i.ons, ∃ e, s.heap.get? p = some e)
    (h2 : ∀ p ∈ i.offs, ∃ e, s.heap.get? p = some e) : preProcessToggles s i = .ok ([], []) := by
  obtain ⟨l1, e1⟩ := toggleIdxs_ok s i.ons h1
  obtain ⟨l2, e2⟩ := toggleIdxs_ok s i.offs h2
  simp only [preProcessToggles, e1, e2, bind, Except.bind, addIdxs_nil]

theorem preProcess_bad {s : Codec} {i : CInstrs} (h1 : ∀ p ∈ i.ons, ∃ e, s.heap.get? p = some e)
    (h2 : ∃ p ∈ i.offs, s.heap.get? p = none) : preProcessToggles s i = .error .index := by
  obtain ⟨l1, e1⟩ := toggleIdxs_ok s i.ons h1
  simp only [preProcessToggles, e1, toggleIdxs_bad s i.offs h2, bind, Except.bind]

/-! ### The tape -/

theorem holds_u8 {b : BB} {t : Tape} (h : HoldsC b t) {v : Nat} (hv : v < 256) :
    HoldsC (storeByteAlignedUint8 b v) (putBytes t [v]) :=
  holdsC_aligned h [v] (by simpa using hv)

theorem holds_u16 {b : BB} {t : Tape} (h : HoldsC b t) (v : Nat) :
    HoldsC (storeByteAlignedUint16 b v) (putBytes t [v % 256, v / 256 % 256]) :=
  holdsC_aligned h [v % 256, v / 256 % 256] (by
    intro x hx
    simp only [List.mem_cons, List.not_mem_nil, or_false] at hx
    omega)

theorem holds_u32 {b : BB} {t : Tape} (h : HoldsC b t) (v : Nat) :
    HoldsC (storeByteAlignedUint32 b v)
      (putBytes t [v % 256, v / 256 % 256, v / 65536 % 256, v / 16777216 % 256]) :=
  holdsC_aligned h [v % 256, v / 256 % 256, v / 65536 % 256, v / 16777216 % 256] (by
    intro x hx
    simp only [List.mem_cons, List.not_mem_nil, or_false] at hx
    omega)

theorem holds_text {h : Coder} {codes : List (List Bool)} (hc : IsCoder h codes) {b : BB} {t : Tape} (hb : HoldsC b t)
    {text : Str} (ht : ∀ c ∈ text, c < 256) : ∃ b', encodeC h b text true = .ok b' ∧ HoldsC b' (putText codes t text) := by
  obtain ⟨b', e, hb'⟩ := encodeC_spec hc text (fun c hcm => by have := ht c hcm; omega) true hb
  exact ⟨b', e, by simpa [putText] using hb'⟩

theorem writeAll_spec {α β : Type} {w : BB → α → Py BB} {item : Tape → β → Tape} {f : α → β} (xs : List α)
    (hw : ∀ x ∈ xs, ∀ b t, HoldsC b t → ∃ b', w b x = .ok b' ∧ HoldsC b' (item t (f x))) {b : BB} {t : Tape}
    (hb : HoldsC b t) : ∃ b', writeAll w b xs = .ok b' ∧ HoldsC b' ((xs.map f).foldl item t) := by
  induction xs generalizing b t with
  | nil => exact ⟨b, rfl, hb⟩
  | cons x xs ih =>
    obtain ⟨b1, e1, h1⟩ := hw x (by simp) b t hb
    obtain ⟨b2, e2, h2⟩ := ih (fun y hy => hw y (by simp [hy])) h1
    refine ⟨b2, ?_, h2⟩
    simp only [writeAll, e1, bind, Except.bind, e2]

theorem outputOps_spec {α β : Type} {opcode : Nat} (ho : opcode < 256) {w : BB → α → Py BB} {item : Tape → β → Tape}
    {f : α → β} (n : Nat) (xs : List α) (hn : xs.length < n)
    (hw : ∀ x ∈ xs, ∀ b t, HoldsC b t → ∃ b', w b x = .ok b' ∧ HoldsC b' (item t (f x))) {b : BB} {t : Tape}
    (hb : HoldsC b t) : ∃ b', outputOps opcode w n b xs = .ok b' ∧ HoldsC b' (putOps opcode item t (xs.map f)) := by
  induction n generalizing xs b t with
  | zero => omega
  | succ n ih =>
    by_cases h0 : xs = []
    · subst h0
      refine ⟨b, rfl, ?_⟩
      simpa [putOps, parts] using hb
    · have hlen := List.length_pos_iff.2 h0
      have hmin : min xs.length 255 < 256 := by omega
      obtain ⟨b1, e1, h1⟩ := writeAll_spec (xs.take 255) (fun x hx => hw x (List.mem_of_mem_take hx))
        (holds_u8 (holds_u8 hb ho) hmin)
      obtain ⟨b2, e2, h2⟩ := ih (xs.drop 255) (by simp only [List.length_drop]; omega)
        (fun x hx => hw x (List.mem_of_mem_drop hx)) h1
      refine ⟨b2, ?_, ?_⟩
      · simp only [outputOps, if_neg h0, e1, bind, Except.bind, e2]
      · have hne : xs.map f ≠ [] := by simpa using h0
        have hp : parts (xs.map f) = (xs.take 255).map f :: parts ((xs.drop 255).map f) := by
          rw [parts, dif_neg hne, List.map_take, List.map_drop]
        have hl : ((xs.take 255).map f).length = min xs.length 255 := by
          simp only [List.length_map, List.length_take]
          omega
        unfold putOps
        rw [hp, List.foldl_cons]
        have : putBlock opcode item t ((xs.take 255).map f) =
            ((xs.take 255).map f).foldl item (putBytes (putBytes t [opcode]) [min xs.length 255]) := by
          unfold putBlock
          rw [hl]
        rw [this]
        exact h2

theorem serialize_spec {h : Coder} {codes : List (List Bool)} (hc : IsCoder h codes) {s : Codec} {i : CInstrs}
    (h1 : ∀ p ∈ i.ons, ∃ e, s.heap.get? p = some e) (h2 : ∀ p ∈ i.offs, ∃ e, s.heap.get? p = some e)
    (h3 : ∀ c ∈ i.clones, s.keymap.has c.1 = true)
    (h4 : ∀ c ∈ i.clones ++ i.kvstos, (∀ x ∈ c.1, x < 256) ∧ ∀ x ∈ c.2, x < 256)
    {streamId : Nat} (hid : streamId / 32768 % 2 = 0) (ends : Bool) {b : BB} {t : Tape} (hb : HoldsC b t) :
    ∃ b', serialize h s i b streamId ends = .ok b' ∧ HoldsC b' (putFrame codes t streamId ends
      (i.clones.map fun c => ((((s.keymap.get? c.1).map CKey.idx).getD 0), c.2)) i.kvstos) := by
  have hor : streamId ||| 32768 = streamId + 32768 := by
    have hr : streamId % 65536 < 2 ^ 15 := by omega
    have e1 : streamId = 2 ^ 16 * (streamId / 65536) + streamId % 65536 := by omega
    have e2 := Nat.two_pow_add_eq_or_of_lt (i := 16) (b := streamId % 65536) (by omega) (streamId / 65536)
    have e3 := Nat.two_pow_add_eq_or_of_lt (i := 15) (b := streamId % 65536) hr 1
    have e4 := Nat.two_pow_add_eq_or_of_lt (i := 16) (b := 2 ^ 15 * 1 + streamId % 65536) (by omega) (streamId / 65536)
    calc streamId ||| 32768 = (2 ^ 16 * (streamId / 65536) ||| streamId % 65536) ||| 32768 := by rw [← e2, ← e1]
      _ = 2 ^ 16 * (streamId / 65536) ||| (2 ^ 15 * 1 ||| streamId % 65536) := by
        rw [Nat.or_assoc, Nat.or_comm (streamId % 65536)]
        rfl
      _ = 2 ^ 16 * (streamId / 65536) + (2 ^ 15 * 1 + streamId % 65536) := by rw [← e3, ← e4]
      _ = streamId + 32768 := by omega
  have hb1 := holds_u16 hb 0
  have hb2 := holds_u8 (v := if ends then 1 else 0) hb1 (by split <;> omega)
  have hb3 := holds_u32 hb2 (streamId + 32768)
  have hb4 := holds_u8 (v := 8) hb3 (by omega)
  obtain ⟨b5, e5, hb5⟩ := outputOps_spec (opcode := 0) (by omega) (w := writeClone h s) (item := putClone codes)
    (f := fun c : Str × Str => ((((s.keymap.get? c.1).map CKey.idx).getD 0), c.2)) (i.clones.length + 1) i.clones
    (Nat.lt_succ_self _) (by
      intro c hcm b t hb
      obtain ⟨k, hk⟩ : ∃ k, s.keymap.get? c.1 = some k := by
        have := h3 c hcm
        exact has_iff.1 this
      obtain ⟨b', e, hb'⟩ := holds_text hc (holds_u16 hb k.idx) (h4 c (by simp [hcm])).2
      refine ⟨b', ?_, ?_⟩
      · simp only [writeClone, keyAt, hk, bind, Except.bind, e]
      · simpa only [putClone, hk, Option.map_some, Option.getD_some] using hb') hb4
  obtain ⟨b6, e6, hb6⟩ := outputOps_spec (opcode := 1) (by omega) (w := writeKVSto h) (item := putKVSto codes)
    (f := fun c : Str × Str => c) (i.kvstos.length + 1) i.kvstos
    (Nat.lt_succ_self _) (by
      intro c hcm b t hb
      obtain ⟨b1, e1, hb1⟩ := holds_text hc hb (h4 c (by simp [hcm])).1
      obtain ⟨b', e, hb'⟩ := holds_text hc hb1 (h4 c (by simp [hcm])).2
      exact ⟨b', by simp only [writeKVSto, e1, bind, Except.bind, e], hb'⟩) hb5
  have hid' : ¬ streamId / 32768 % 2 = 1 := by omega
  refine ⟨b6, ?_, ?_⟩
  · have n2 : ∀ b, outputOps 2 writeToggle (([] : List Nat).length + 1) b [] = .ok b := fun _ => rfl
    have n3 : ∀ b, outputOps 3 writeRange (([] : List (Nat × Nat)).length + 1) b [] = .ok b := fun _ => rfl
    simp only [serialize, preProcess_ok h1 h2, bind, Except.bind, writeBoilerplate, writeStreamId, if_neg hid', hor,
      n2, n3, e5]
    exact e6
  · rw [List.map_id'] at hb6
    exact hb6

end Verif.Cpp
