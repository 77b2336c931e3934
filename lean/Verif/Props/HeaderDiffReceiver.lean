import Verif.HeaderDiff.Left
import Verif.Props.HeaderDiffCut
/-
What headerdiff's decoder does with any frames, one after the other, whether they are accepted or not (C134).
-/
namespace Verif.Props
open Verif Verif.HeaderDiff

/-- The states of a decoder that was given any lists of bytes; after an exception it is used again. -/
inductive DiffHeard (cfg : Cfg) : Dec → Prop
  | new : DiffHeard cfg (Dec.init cfg)
  | frame {d : Dec} (f : List Nat) : DiffHeard cfg d → DiffHeard cfg (decodeLeft cfg d f)

/-- C134: what is left is what decoding returns, if it returns. -/
theorem C134_accepted (cfg : Cfg) (d d' : Dec) (f : List Nat) (hs : List Hdr) (h : decodeHeaders cfg d f = .ok (d', hs)) :
    decodeLeft cfg d f = d' := decodeLeft_ok h

/-- C134: what a refused frame leaves: the state after a frame with the same bytes and a smaller number of headers, which is
accepted, and the largest such; and at most one name more. -/
theorem C134_refused (cfg : Cfg) (d : Dec) (f : List Nat) (n : Nat) (hn : f[8]? = some n)
    (h : (decodeHeaders cfg d f).isOk = false) :
    ∃ (k : Nat) (d' : Dec) (hs : List Hdr), k < n ∧ decodeHeaders cfg d (f.set 8 k) = .ok (d', hs) ∧ hs.length = k ∧
      (decodeHeaders cfg d (f.set 8 (k + 1))).isOk = false ∧
      (decodeLeft cfg d f).headers = d'.headers ∧ (decodeLeft cfg d f).size = d'.size ∧
      ((decodeLeft cfg d f).names = d'.names ∨ ∃ name, (decodeLeft cfg d f).names = d'.names ++ [name]) := by
  obtain ⟨hlt, hget⟩ := List.getElem?_eq_some_iff.1 hn
  have hdrop : f.drop 8 = n :: f.drop 9 := by rw [List.drop_eq_getElem_cons hlt, hget]
  have hset : ∀ k, decodeHeaders cfg d (f.set 8 k) = decodeLoop cfg k d (f.drop 9) := by
    intro k
    have : (f.set 8 k).drop 8 = k :: f.drop 9 := by
      rw [List.drop_eq_getElem_cons (by simpa using hlt), List.getElem_set_self, List.drop_set_of_lt (by omega)]
    simp only [decodeHeaders, this, readByte, bind, Except.bind]
  have hf : decodeHeaders cfg d f = decodeLoop cfg n d (f.drop 9) := by
    simp only [decodeHeaders, hdrop, readByte, bind, Except.bind]
  have hl : decodeLeft cfg d f = loopLeft cfg n d (f.drop 9) := by simp only [decodeLeft, hdrop, readByte]
  obtain ⟨k, d', hs, k1, k2, k3, k4, k5, k6, k7⟩ := loopLeft_prefix (cfg := cfg) n d (f.drop 9)
  rw [hf] at h
  rw [hl]
  refine ⟨k, d', hs, (k7 h).1, by rw [hset]; exact k2, ?_, by rw [hset]; exact (k7 h).2, k3, k4, k5.imp id (·.2)⟩
  exact loop_length k2

/-- C134: the size that is counted is that of the values held, whatever arrives. -/
theorem C134_size (cfg : Cfg) (d : Dec) (h : DiffHeard cfg d) : d.size = (d.headers.map fun x => (x.2.length : Int)).sum := by
  induction h with
  | new => rfl
  | frame f _ ih => exact decodeLeft_sum f ih

/-- C134: a decoder that holds more than its buffer accepts no header any more, whatever arrives: nothing changes in it, and each
frame with a header gets the codec's own exception. -/
theorem C134_shut (cfg : Cfg) (d : Dec) (h : cfg.maxSize < d.size) (fs : List (List Nat)) :
    fs.foldl (decodeLeft cfg) d = d ∧ ∀ f ∈ fs, decodeHeaders cfg d f =
      match f[8]? with
      | none => .error .index
      | some 0 => .ok (d, [])
      | some (_ + 1) => .error .standard := by
  have key : ∀ f, decodeLeft cfg d f = d ∧ decodeHeaders cfg d f =
      match f[8]? with
      | none => .error .index
      | some 0 => .ok (d, [])
      | some (_ + 1) => .error .standard := by
    intro f
    cases hn : f[8]? with
    | none =>
      have : f.drop 8 = [] := List.drop_eq_nil_of_le (List.getElem?_eq_none_iff.1 hn)
      simp only [decodeLeft, decodeHeaders, this, readByte, bind, Except.bind, and_self]
    | some n =>
      obtain ⟨hlt, hget⟩ := List.getElem?_eq_some_iff.1 hn
      have hdrop : f.drop 8 = n :: f.drop 9 := by rw [List.drop_eq_getElem_cons hlt, hget]
      obtain ⟨h1, h2⟩ := loopLeft_shut h n (f.drop 9)
      simp only [decodeLeft, decodeHeaders, hdrop, readByte, bind, Except.bind]
      refine ⟨h1, ?_⟩
      rw [h2]
      cases n <;> rfl
  refine ⟨?_, fun f _ => (key f).2⟩
  induction fs with
  | nil => rfl
  | cons f fs ih => rw [List.foldl_cons, (key f).1]; exact ih

theorem heard_names {cfg : Cfg} {d : Dec} (h : DiffHeard cfg d) : d.names.head? = (registered cfg.isRequest).head? := by
  have app : ∀ (n : Nat) (d : Dec) (s : List Nat), d.names ≠ [] → (loopLeft cfg n d s).names.head? = d.names.head? := by
    intro n d s hne
    obtain ⟨l, hl⟩ := loopLeft_longer (cfg := cfg) n d s
    rw [hl]
    cases hd : d.names with
    | nil => exact absurd hd hne
    | cons x xs => rfl
  have hr : (registered cfg.isRequest) ≠ [] := by cases cfg.isRequest <;> decide
  have : d.names ≠ [] ∧ d.names.head? = (registered cfg.isRequest).head? := by
    induction h with
    | new => exact ⟨hr, rfl⟩
    | @frame d f _ ih =>
      have : (decodeLeft cfg d f).names.head? = d.names.head? := by
        unfold decodeLeft
        cases readByte (f.drop 8) with
        | error e => rfl
        | ok q => exact app _ _ _ ih.1
      refine ⟨fun hc => ?_, this.trans ih.2⟩
      rw [hc] at this
      cases hd : d.names with
      | nil => exact ih.1 hd
      | cons x xs => rw [hd] at this; simp at this
  exact this.2

/-- C134: a decoder that holds no more than its buffer accepts a header of any length for the table: the frame of one header with the
first registered name and the value `v`, given as the encoder would write the value.  So one frame shuts the decoder (C134_shut) if the value
is longer than what is free, and otherwise it stays open: exactly the decoders that hold too much are shut. -/
theorem C134_open (cfg : Cfg) (hco : Coded cfg) (d : Dec) (h : DiffHeard cfg d) (hs : d.size ≤ cfg.maxSize) (v : Str)
    (hv : ∀ c ∈ v, c < 256) (out : List Nat) (hw : writeString cfg v = .ok out) :
    ∃ name ∈ registered cfg.isRequest,
      decodeHeaders cfg d ([0, 0, 0, 0, 0, 0, 0, 0, 1, 0x21] ++ out) =
        .ok ({ d with headers := d.headers ++ [(name, v)], size := d.size + v.length }, [(name, v)]) := by
  have hn := heard_names h
  have hr : (registered cfg.isRequest) ≠ [] := by cases cfg.isRequest <;> decide
  obtain ⟨name, rest, hreg⟩ := List.exists_cons_of_ne_nil hr
  refine ⟨name, by rw [hreg]; simp, ?_⟩
  rw [hreg] at hn
  have hi : item d.names 0 = .ok name := by
    unfold item
    rw [← List.head?_eq_getElem?, hn]
    rfl
  have hstr := string_spec (coded_ok hco) hv hw []
  rw [List.append_nil] at hstr
  have h4 : readInteger 0x21 4 out = .ok (1, out) := rfl
  simp only [decodeHeaders, List.cons_append, List.nil_append, List.drop_succ_cons, List.drop_zero, readByte, bind, Except.bind, decodeLoop,
    decodeHeader, if_neg (show ¬ d.size > cfg.maxSize by omega)]
  rw [if_neg (by decide)]
  simp only [decodeNew]
  rw [if_neg (by decide)]
  simp only [show ((0x21 &&& 0x30 : Nat) == 0x20) = true from rfl, show ((0x21 &&& 0x30 : Nat) == 0x30) = false from rfl, Bool.true_or, if_true,
    decodeName, h4, bind, Except.bind, hi, hstr, Bool.false_eq_true, if_false, decodeIndexing]
  rw [if_neg (by decide)]
  simp [hi, hstr]

/-- C134.  The code violates that a frame that is refused has no effect: the first frame is cut off and refused, then arrives as a
whole, and is decoded; the second frame then gives the wrong header. -/
theorem C134_false : ∃ (f1 f2 : List Nat) (st : Enc) (d2 d3 : Dec),
    let cfg : Cfg := ⟨32768, true, .full, none, true⟩
    let cut := f1.take 18
    encodeAll (fun _ t => t) cfg (Enc.init cfg) [[(b!"x", b!"abc"), (b!"y", b!"d")], [(b!"y", b!"d")]] = (st, .ok [f1, f2]) ∧
    decodeHeaders cfg (Dec.init cfg) cut = .error .index ∧
    decodeHeaders cfg (decodeLeft cfg (Dec.init cfg) cut) f1 = .ok (d2, [(b!"x", b!"abc"), (b!"y", b!"d")]) ∧
    decodeHeaders cfg d2 f2 = .ok (d3, [(b!"x", b!"abc")]) :=
  ⟨_, _, _, _, _, rfl, rfl, rfl, rfl⟩

/-- A buffer of 3 bytes: a frame with a value of 4 bytes is accepted, and then nothing more. -/
example : let cfg : Cfg := ⟨3, true, .full, none, true⟩
    let f : List Nat := [0, 0, 0, 0, 0, 0, 0, 0, 1, 0x21] ++ [4, 97, 98, 99, 100]
    writeString cfg b!"abcd" = .ok [4, 97, 98, 99, 100] ∧
    (decodeHeaders cfg (Dec.init cfg) f).map (·.2) = .ok [(b!"accept", b!"abcd")] ∧ cfg.maxSize < (decodeLeft cfg (Dec.init cfg) f).size ∧
    decodeHeaders cfg (decodeLeft cfg (Dec.init cfg) f) [0, 0, 0, 0, 0, 0, 0, 0, 1, 1, 0] = .error .standard ∧
    (decodeHeaders cfg (Dec.init cfg) [0, 0, 0, 0, 0, 0, 0, 0, 1, 1, 0]).map (·.2) = .ok [(b!"accept", [])] := by
  refine ⟨rfl, rfl, by decide, rfl, rfl⟩

/-- A refused frame of three headers of which the first is kept, and the name of the second. -/
example : let cfg : Cfg := ⟨3, true, .full, none, true⟩
    let f : List Nat := [0, 0, 0, 0, 0, 0, 0, 0, 3, 0x21, 1, 97, 0x20, 1, 98]
    decodeHeaders cfg (Dec.init cfg) f = .error .index ∧
    decodeLeft cfg (Dec.init cfg) f = ⟨[(b!"accept", b!"a")], 1, registered true ++ [b!"b"]⟩ := ⟨rfl, rfl⟩

end Verif.Props
