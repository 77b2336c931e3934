import Verif.Cpp.Spdy3
import Verif.Zlib.Spec
import Verif.Zlib.Stored
/-
Property C113: the SPDY/3 frames that the C++ sample writes for comparison.
-/
namespace Verif.Props
open Verif Verif.Cpp.Spdy3

/-! ### What a frame is (SPDY/3, 2.2.1 and 2.6.7), independent of the model -/

/-- A number from its bytes, most significant first. -/
def number113 (s : Str) : Nat := s.foldl (fun a d => 256 * a + d) 0

/-- A control frame of version 3: 16 bits version with the control bit set, 16 bits type, 8 bits flags, 24 bits length; then as
many bytes as the length says. -/
structure Control113 where
  type : Nat
  flags : Nat
  body : Str
  deriving DecidableEq, Repr

/-- Reading the first frame of a stream: the frame and what follows it. -/
def read113 (s : Str) : Option (Control113 × Str) :=
  match s with
  | v0 :: v1 :: t0 :: t1 :: flags :: l0 :: l1 :: l2 :: rest =>
    if v0 = 128 ∧ v1 = 3 ∧ number113 [l0, l1, l2] ≤ rest.length then
      some (⟨number113 [t0, t1], flags, rest.take (number113 [l0, l1, l2])⟩, rest.drop (number113 [l0, l1, l2]))
    else none
  | _ => none

/-- A string behind its length in 32 bits. -/
def readStr113 (s : Str) : Option (Str × Str) :=
  if s.length < 4 then none
  else if (s.drop 4).length < number113 (s.take 4) then none
  else some ((s.drop 4).take (number113 (s.take 4)), (s.drop 4).drop (number113 (s.take 4)))

/-- That many names and values. -/
def readPairs113 : Nat → Str → Option (List Hdr × Str)
  | 0, s => some ([], s)
  | n + 1, s => do
    let (k, s) ← readStr113 s
    let (v, s) ← readStr113 s
    let (hs, s) ← readPairs113 n s
    pure ((k, v) :: hs, s)

/-- A name/value header block (2.6.10): the number of pairs in 32 bits, then the pairs. -/
def readBlock113 (s : Str) : Option (List Hdr) :=
  if s.length < 4 then none
  else match readPairs113 (number113 (s.take 4)) (s.drop 4) with
    | some (hs, []) => some hs
    | _ => none

/-- Everything can be counted in 32 bits. -/
def Small113 (frame : List Hdr) : Prop :=
  frame.length < 4294967296 ∧ ∀ h ∈ frame, h.1.length < 4294967296 ∧ h.2.length < 4294967296

/-! ### The block -/

theorem int32_length (n : Nat) : (int32 n).length = 4 := rfl

theorem int32_number {n : Nat} (h : n < 4294967296) : number113 (int32 n) = n := by
  simp only [int32, number113, List.foldl_cons, List.foldl_nil]
  omega

theorem int24_number {n : Nat} (h : n < 16777216) : number113 (int24 n) = n := by
  simp only [int24, number113, List.foldl_cons, List.foldl_nil]
  omega

theorem blockLoop_eq : ∀ (frame : List Hdr) (tbc : Str),
    blockLoop tbc frame = tbc ++ frame.flatMap fun h => int32 h.1.length ++ h.1 ++ (int32 h.2.length ++ h.2)
  | [], tbc => by simp [blockLoop]
  | (k, v) :: frame, tbc => by
    simp only [blockLoop, blockLoop_eq frame, List.flatMap_cons, List.append_assoc]

theorem readStr113_ok (s rest : Str) (h : s.length < 4294967296) :
    readStr113 (int32 s.length ++ s ++ rest) = some (s, rest) := by
  have e1 : (int32 s.length ++ s ++ rest).drop 4 = s ++ rest := by
    rw [List.append_assoc, ← int32_length s.length, List.drop_left]
  have e2 : (int32 s.length ++ s ++ rest).take 4 = int32 s.length := by
    rw [List.append_assoc, ← int32_length s.length, List.take_left]
  have e3 := int32_number h
  unfold readStr113
  rw [if_neg (by simp only [List.length_append, int32_length]; omega), e1, e2, e3, if_neg (by simp)]
  simp

theorem readPairs113_ok : ∀ (frame : List Hdr), (∀ h ∈ frame, h.1.length < 4294967296 ∧ h.2.length < 4294967296) →
    readPairs113 frame.length (frame.flatMap fun h => int32 h.1.length ++ h.1 ++ (int32 h.2.length ++ h.2)) =
      some (frame, [])
  | [], _ => rfl
  | (k, v) :: frame, hs => by
    have h1 := hs (k, v) (by simp)
    have ih := readPairs113_ok frame (fun h hm => hs h (by simp [hm]))
    have e1 : readStr113 (((k, v) :: frame).flatMap fun h => int32 h.1.length ++ h.1 ++ (int32 h.2.length ++ h.2)) =
        some (k, int32 v.length ++ v ++ frame.flatMap fun h => int32 h.1.length ++ h.1 ++ (int32 h.2.length ++ h.2)) := by
      rw [List.flatMap_cons, List.append_assoc]
      exact readStr113_ok k _ h1.1
    simp only [List.length_cons, readPairs113, e1, Option.bind_eq_bind, Option.bind_some, readStr113_ok v _ h1.2, ih]
    rfl

theorem readBlock113_ok (frame : List Hdr) (h : Small113 frame) :
    readBlock113 (formatHeaderBlock [] frame) = some frame := by
  have e : formatHeaderBlock [] frame =
      int32 frame.length ++ frame.flatMap fun h => int32 h.1.length ++ h.1 ++ (int32 h.2.length ++ h.2) := by
    rw [formatHeaderBlock, blockLoop_eq]
    rfl
  have e1 : (formatHeaderBlock [] frame).take 4 = int32 frame.length := by
    rw [e, ← int32_length frame.length, List.take_left]
  have e2 : (formatHeaderBlock [] frame).drop 4 =
      frame.flatMap fun h => int32 h.1.length ++ h.1 ++ (int32 h.2.length ++ h.2) := by
    rw [e, ← int32_length frame.length, List.drop_left]
  unfold readBlock113
  rw [if_neg (by rw [e, List.length_append, int32_length]; omega), e1, e2, int32_number h.1, readPairs113_ok frame h.2]

/-! ### The frame -/

/-- What is written for one frame, behind whatever was there. -/
theorem formatHeaders_eq {σ : Type} (zip : σ → Str → σ × Str) (z : σ) (out : Str) (frame : List Hdr) :
    formatHeaders zip ⟨z, []⟩ out frame =
      .ok (⟨(zip z (formatHeaderBlock [] frame)).1, []⟩,
        out ++ ([128, 3, 0, 8, 0] ++ int24 (3 + (4 + (zip z (formatHeaderBlock [] frame)).2.length)) ++ int32 1 ++
          (zip z (formatHeaderBlock [] frame)).2)) := by
  generalize hr : zip z (formatHeaderBlock [] frame) = r
  have hpin : (out ++ [128] ++ [3] ++ [0] ++ [8] ++ [0]).length = (out ++ [128, 3, 0, 8, 0]).length := by simp
  have hout : out ++ [128] ++ [3] ++ [0] ++ [8] ++ [0] = out ++ [128, 3, 0, 8, 0] := by simp
  simp only [formatHeaders, compress, hr, hout]
  generalize hp : out ++ [128, 3, 0, 8, 0] = pre
  have hlen : (pre ++ int24 0 ++ int32 1 ++ r.2).length - pre.length = 3 + (4 + r.2.length) := by
    simp only [List.length_append, int32_length, show (int24 0).length = 3 from rfl]
    omega
  have key : ∀ v, overwriteInt24 (pre ++ int24 0 ++ int32 1 ++ r.2) pre.length v =
      .ok (pre ++ int24 v ++ int32 1 ++ r.2) := by
    intro v
    have h1 : ∀ (a b c x y w : Nat) (t : Str),
        (((pre ++ (a :: b :: c :: t)).set pre.length x).set (pre.length + 1) y).set (pre.length + 2) w =
          pre ++ (x :: y :: w :: t) := by
      intro a b c x y w t
      rw [List.set_append_right _ _ (Nat.le_refl _), List.set_append_right _ _ (by omega),
        List.set_append_right _ _ (by omega)]
      simp
    simp only [overwriteInt24]
    rw [if_pos (by simp only [List.length_append, int32_length, show (int24 0).length = 3 from rfl]; omega)]
    simp only [List.append_assoc, int24, List.cons_append, List.nil_append]
    rw [h1]
  simp only [hlen, key, bind, Except.bind, pure, Except.pure]
  rw [← hp]
  simp only [List.append_assoc]

/-- C113, the part that does not hold: the length in a frame is three more than the number of bytes that follow it, for every
frame and every compressor (as long as it fits the field).  So nobody can read a frame by itself; and of two frames one behind
the other, the first swallows the first three bytes of the second, and what is left is not a control frame. -/
theorem C113_false {σ : Type} (zip : σ → Str → σ × Str) (z : σ) (frame : List Hdr) :
    ∃ f out, formatHeaders zip ⟨z, []⟩ [] frame = .ok (f, out) ∧
      (out.length < 16777216 →
        number113 ((out.drop 5).take 3) = (out.drop 8).length + 3 ∧
        read113 out = none ∧
        ∀ frame2, ∃ f2 out2 c rest, formatHeaders zip f out frame2 = .ok (f2, out2) ∧
          read113 out2 = some (c, rest) ∧ c.body = out.drop 8 ++ [128, 3, 0] ∧ read113 rest = none) := by
  refine ⟨_, _, formatHeaders_eq zip z [] frame, fun hl => ?_⟩
  generalize hr : zip z (formatHeaderBlock [] frame) = r
  rw [hr] at hl
  simp only [List.nil_append, List.length_append, int32_length, show ∀ n, (int24 n).length = 3 from fun _ => rfl,
    List.length_cons, List.length_nil] at hl
  have hn : number113 (int24 (3 + (4 + r.2.length))) = 3 + (4 + r.2.length) := int24_number (by omega)
  generalize hi : int24 (3 + (4 + r.2.length)) = i24 at hn
  obtain ⟨l0, l1, l2, rfl⟩ : ∃ l0 l1 l2, i24 = [l0, l1, l2] := ⟨_, _, _, hi.symm⟩
  refine ⟨?_, ?_, fun frame2 => ?_⟩
  · simp only [List.nil_append, List.cons_append, List.append_assoc, List.drop_succ_cons, List.drop_zero,
      List.take_succ_cons, List.take_zero, hn, List.length_append, int32_length]
    omega
  · simp only [List.nil_append, List.cons_append, List.append_assoc, read113]
    rw [if_neg]
    rw [hn]
    simp only [List.length_append, int32_length]
    omega
  · have e2 := formatHeaders_eq zip r.1 ([] ++ ([128, 3, 0, 8, 0] ++ [l0, l1, l2] ++ int32 1 ++ r.2)) frame2
    generalize hr2 : zip r.1 (formatHeaderBlock [] frame2) = r2 at e2
    refine ⟨_, _, ⟨8, 0, int32 1 ++ r.2 ++ [128, 3, 0]⟩,
      8 :: 0 :: (int24 (3 + (4 + r2.2.length)) ++ int32 1 ++ r2.2), e2, ?_, ?_, ?_⟩
    · simp only [List.nil_append, List.cons_append, List.append_assoc, read113]
      rw [hn, if_pos ⟨trivial, trivial, by
        simp only [List.length_append, List.length_cons, int32_length]; omega⟩]
      have e3 : int32 1 ++ (r.2 ++ 128 :: 3 :: 0 :: 8 :: 0 :: (int24 (3 + (4 + r2.2.length)) ++ (int32 1 ++ r2.2))) =
          (int32 1 ++ r.2 ++ [128, 3, 0]) ++ 8 :: 0 :: (int24 (3 + (4 + r2.2.length)) ++ (int32 1 ++ r2.2)) := by
        simp only [List.append_assoc, List.cons_append, List.nil_append]
      have e4 : 3 + (4 + r.2.length) = (int32 1 ++ r.2 ++ [128, 3, 0]).length := by
        simp only [List.length_append, List.length_cons, List.length_nil, int32_length]; omega
      rw [e3, e4, List.take_left, List.drop_left]
      simp only [List.append_assoc, List.cons_append, List.nil_append]
      rfl
    · simp only [List.nil_append, List.cons_append, List.append_assoc, List.drop_succ_cons, List.drop_zero]
    · simp only [int24, int32, List.cons_append, List.nil_append, read113]
      rw [if_neg (by omega)]

/-! ### A run -/

/-- A receiver that takes the end of each frame from somewhere else than the length: HEADERS of version 3 for stream 1, then
what the decompressor makes of the rest. -/
def decode113 (L : Zlib.Lib) (u : L.U) : List Str → Option (L.U × List (List Hdr))
  | [] => some (u, [])
  | out :: outs =>
    if out.take 5 = [128, 3, 0, 8, 0] ∧ (out.drop 8).take 4 = [0, 0, 0, 1] then do
      let (u, block) ← L.unzip u (out.drop 12)
      let frame ← readBlock113 block
      let (u, frames) ← decode113 L u outs
      pure (u, frame :: frames)
    else none

theorem decode113_append (L : Zlib.Lib) : ∀ (xs ys : List Str) (u u1 u2 : L.U) (fs gs : List (List Hdr)),
    decode113 L u xs = some (u1, fs) → decode113 L u1 ys = some (u2, gs) → decode113 L u (xs ++ ys) = some (u2, fs ++ gs)
  | [], ys, u, u1, u2, fs, gs, h1, h2 => by
    simp only [decode113, Option.some.injEq, Prod.mk.injEq] at h1
    obtain ⟨rfl, rfl⟩ := h1
    exact h2
  | x :: xs, ys, u, u1, u2, fs, gs, h1, h2 => by
    simp only [decode113] at h1
    split at h1
    · rename_i hx
      cases e1 : L.unzip u (x.drop 12) with
      | none => simp [e1] at h1
      | some p =>
        cases e2 : readBlock113 p.2 with
        | none => simp [e1, e2] at h1
        | some frame =>
          cases e3 : decode113 L p.1 xs with
          | none => simp [e1, e2, e3] at h1
          | some q =>
            simp only [e1, e2, e3, Option.bind_eq_bind, Option.bind_some, Option.pure_def, Option.some.injEq,
              Prod.mk.injEq] at h1
            obtain ⟨rfl, rfl⟩ := h1
            have ih := decode113_append L xs ys p.1 q.1 u2 q.2 gs e3 h2
            simp only [List.cons_append, decode113, if_pos hx, e1, e2, ih, Option.bind_eq_bind, Option.bind_some]
            rfl
    · cases h1

theorem pass_ok (L : Zlib.Lib) (ok : Zlib.Ok L) : ∀ (frames : List (List Hdr)) (z : L.Z) (u : L.U) (size : Nat),
    ok.Paired z u → (∀ fr ∈ frames, Small113 fr) →
    ∃ z' u' outs, pass L.zip ⟨z, []⟩ frames size = .ok (⟨z', []⟩, outs, size + (outs.map List.length).sum) ∧
      ok.Paired z' u' ∧ decode113 L u outs = some (u', frames)
  | [], z, u, size, hp, _ => ⟨z, u, [], rfl, hp, rfl⟩
  | fr :: frames, z, u, size, hp, hs => by
    obtain ⟨u1, e1, hp1⟩ := ok.unzip_zip z u (formatHeaderBlock [] fr) hp
    have e0 := formatHeaders_eq L.zip z [] fr
    generalize L.zip z (formatHeaderBlock [] fr) = r at e0 e1 hp1
    generalize hout : [] ++ ([128, 3, 0, 8, 0] ++ int24 (3 + (4 + r.2.length)) ++ int32 1 ++ r.2) = out at e0
    obtain ⟨z', u', outs, e2, h2, h3⟩ := pass_ok L ok frames r.1 u1 (size + out.length) hp1
      (fun f hf => hs f (by simp [hf]))
    refine ⟨z', u', out :: outs, ?_, h2, ?_⟩
    · simp only [pass, bind, Except.bind, e0, e2, List.map_cons, List.sum_cons]
      rw [Nat.add_assoc]
      rfl
    · have t1 : out.take 5 = [128, 3, 0, 8, 0] := by rw [← hout]; rfl
      have t2 : (out.drop 8).take 4 = [0, 0, 0, 1] := by rw [← hout]; rfl
      have t3 : out.drop 12 = r.2 := by rw [← hout]; rfl
      simp only [decode113, t1, t2, and_self, if_true, t3, e1, Option.bind_eq_bind, Option.bind_some,
        readBlock113_ok fr (hs fr (by simp)), h3]
      rfl

/-- C113, the part that holds: for every zlib library that keeps its contract, every list of frames with sizes that fit 32
bits, and every number of iterations, the program does not fault, the size it reports is the number of bytes it made, and a
receiver that does not need the length gets exactly the frames, once for each iteration, in order. -/
theorem C113_partial (L : Zlib.Lib) (ok : Zlib.Ok L) (frames : List (List Hdr)) (hs : ∀ fr ∈ frames, Small113 fr) :
    ∀ (n : Nat) (z : L.Z) (u : L.U) (size : Nat), ok.Paired z u →
    ∃ u' outs, doSpdy3 L.zip frames n ⟨z, []⟩ size = .ok (outs, size + (outs.map List.length).sum) ∧
      decode113 L u outs = some (u', (List.replicate n frames).flatten)
  | 0, z, u, size, _ => ⟨u, [], rfl, rfl⟩
  | n + 1, z, u, size, hp => by
    obtain ⟨z1, u1, outs1, e1, hp1, d1⟩ := pass_ok L ok frames z u size hp hs
    obtain ⟨u2, outs2, e2, d2⟩ := C113_partial L ok frames hs n z1 u1 (size + (outs1.map List.length).sum) hp1
    refine ⟨u2, outs1 ++ outs2, ?_, ?_⟩
    · simp only [doSpdy3, bind, Except.bind, e1, e2, List.map_append, List.sum_append, Nat.add_assoc]
      rfl
    · rw [List.replicate_succ, List.flatten_cons]
      exact decode113_append L _ _ _ _ _ _ _ d1 d2

/-! ### Cases -/

def frames113 : List (List Hdr) := [[(b!":host", b!"a"), (b!":path", b!"/")], []]

example : ∀ fr ∈ frames113, Small113 fr := by
  intro fr h
  simp only [frames113, List.mem_cons, List.not_mem_nil, or_false] at h
  rcases h with rfl | rfl
  · refine ⟨by decide, fun h hm => ?_⟩
    simp only [List.mem_cons, List.not_mem_nil, or_false] at hm
    rcases hm with rfl | rfl <;> decide
  · exact ⟨by decide, fun h hm => by cases hm⟩

/-- With a compressor that stores: a frame says 11 bytes, and 8 follow. -/
example : formatHeaders (fun (_ : Unit) s => ((), s)) ⟨(), []⟩ [] [] =
    .ok (⟨(), []⟩, [128, 3, 0, 8, 0, 0, 0, 11, 0, 0, 0, 1, 0, 0, 0, 0]) := by rfl

end Verif.Props
