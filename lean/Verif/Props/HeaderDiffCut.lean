import Verif.Props.HeaderDiff
import Verif.HeaderDiff.Grow
/-
Property theorems for headerdiff: frames that are cut off or made up, and the size of its tables (C128-C130).
-/
namespace Verif.Props
open Verif Verif.HeaderDiff Verif.Lib Verif.Lib.Spec

/-- C128.  After every session, for the next frame and what the decoder makes of it: if the last header is `last`, then some
last `k` bytes of the frame are the end of its value (none with Huffman codes); a frame that is cut off before them gives an
IndexError, one that is cut off within them is accepted, and only the last value is shorter, by the bytes that are missing. -/
theorem C128_cut (cfg : Cfg) (hmax : 0 ≤ cfg.maxSize) (hco : Coded cfg) (order : Order) (ho : ∀ n t, (order n t).Perm t)
    (ms : List (List Hdr)) (hb : ByteSession ms) (st : Enc) (fs : List (List Nat))
    (he : encodeAll order cfg (Enc.init cfg) ms = (st, .ok fs)) (d : Dec) (outs : List (List Hdr))
    (hd : decodeAll cfg (Dec.init cfg) fs = .ok (d, outs)) (m : List Hdr)
    (hbm : ∀ h ∈ m, (∀ c ∈ h.1, c < 256) ∧ ∀ c ∈ h.2, c < 256) (hne : m ≠ []) (st' : Enc) (f : List Nat)
    (hf : encodeHeaders order cfg st m = (st', .ok f)) :
    ∃ (d' : Dec) (init : List Hdr) (name value : Str) (k : Nat), decodeHeaders cfg d f = .ok (d', init ++ [(name, value)]) ∧
      (cfg.huffman ≠ none → k = 0) ∧ (∃ a b w, a ++ w = f ∧ b ++ w = value ∧ w.length = k) ∧
      (∀ j, j + k < f.length → decodeHeaders cfg d (f.take j) = .error .index) ∧
      ∀ i, i ≤ k → ∃ d'', decodeHeaders cfg d (f.take (f.length - i)) = .ok (d'', init ++ [(name, value.take (value.length - i))]) := by
  obtain ⟨d1, outs1, hsy, hd1, _⟩ := session_like hmax hco ho hb he
  rw [hd] at hd1
  cases hd1
  obtain ⟨d', init, last, k, e1, e2, e3, e4, e5, e6, e7⟩ := (encodeHeaders_cut (coded_ok hco) ho m hsy hbm hf).2 hne
  refine ⟨d', init, last.1, last.2, k, e1, e2, ⟨f.take (f.length - k), last.2.take (last.2.length - k), f.drop (f.length - k),
    List.take_append_drop _ _, by rw [e5, List.take_append_drop], by rw [List.length_drop]; omega⟩, e6, fun i hi => ?_⟩
  obtain ⟨d'', e⟩ := e7 (f.length - i) (by omega) (by omega)
  refine ⟨d'', ?_⟩
  rw [e, show f.length - (f.length - i) = i by omega]

/-- C128.  With Huffman codes, and for a frame without headers, every frame that is cut off gives an IndexError. -/
theorem C128_noticed (cfg : Cfg) (hmax : 0 ≤ cfg.maxSize) (hco : Coded cfg) (order : Order) (ho : ∀ n t, (order n t).Perm t)
    (ms : List (List Hdr)) (hb : ByteSession ms) (st : Enc) (fs : List (List Nat))
    (he : encodeAll order cfg (Enc.init cfg) ms = (st, .ok fs)) (d : Dec) (outs : List (List Hdr))
    (hd : decodeAll cfg (Dec.init cfg) fs = .ok (d, outs)) (m : List Hdr)
    (hbm : ∀ h ∈ m, (∀ c ∈ h.1, c < 256) ∧ ∀ c ∈ h.2, c < 256) (hor : cfg.huffman ≠ none ∨ m = []) (st' : Enc) (f : List Nat)
    (hf : encodeHeaders order cfg st m = (st', .ok f)) (j : Nat) (hj : j < f.length) :
    decodeHeaders cfg d (f.take j) = .error .index := by
  obtain ⟨d1, outs1, hsy, hd1, _⟩ := session_like hmax hco ho hb he
  rw [hd] at hd1
  cases hd1
  obtain ⟨h1, h2⟩ := encodeHeaders_cut (coded_ok hco) ho m hsy hbm hf
  by_cases hne : m = []
  · exact h1 hne j hj
  · obtain ⟨d', init, last, k, _, e2, _, _, _, e6, _⟩ := h2 hne
    refine e6 j ?_
    rw [e2 (hor.resolve_right hne)]
    exact hj

/-- C128.  The code violates that a frame that is cut off is noticed: without Huffman codes, the first frame without its last
byte is accepted with a shorter value, and the second frame, complete, then gives the wrong value as well. -/
theorem C128_false : ∃ (f1 f2 : List Nat) (st : Enc) (d1 d2 : Dec),
    let cfg : Cfg := ⟨32768, true, .full, none, true⟩
    encodeAll (fun _ t => t) cfg (Enc.init cfg) [[(b!"x", b!"abc")], [(b!"x", b!"abc")]] = (st, .ok [f1, f2]) ∧
    decodeHeaders cfg (Dec.init cfg) f1.dropLast = .ok (d1, [(b!"x", b!"ab")]) ∧
    decodeHeaders cfg d1 f2 = .ok (d2, [(b!"x", b!"ab")]) :=
  ⟨_, _, _, _, _, rfl, rfl, rfl⟩

/-- The names and values that a decoder holds are at most `B` long. -/
def HeldWithin (B : Nat) (d : Dec) : Prop := (∀ h ∈ d.headers, h.1.length ≤ B ∧ h.2.length ≤ B) ∧ ∀ n ∈ d.names, n.length ≤ B

/-- C129.  Any list of numbers in place of a frame, in any state of the decoder: it ends, with an IndexError, with the codec's
own exception, or with as many headers as its ninth byte says, which is less than its length.  Each name and value is at
most as long as the longest text held before and eight times the bytes after the ninth, also in the table afterwards; the
tables grow by at most one entry for each header. -/
theorem C129_any (cfg : Cfg) (hco : Coded cfg) (d : Dec) (B : Nat) (hB : HeldWithin B d) (f : List Nat) :
    decodeHeaders cfg d f = .error .index ∨ decodeHeaders cfg d f = .error .standard ∨
    ∃ d' hs, decodeHeaders cfg d f = .ok (d', hs) ∧ f[8]? = some hs.length ∧ hs.length + 9 ≤ f.length ∧
      (∀ h ∈ hs, h.1.length ≤ B + 8 * (f.length - 9) ∧ h.2.length ≤ B + 8 * (f.length - 9)) ∧
      HeldWithin (B + 8 * (f.length - 9)) d' ∧
      d'.headers.length ≤ d.headers.length + hs.length ∧ d'.names.length ≤ d.names.length + hs.length := by
  have := decodeHeaders_any (coded_ok hco) (⟨hB.1, hB.2⟩ : Within B d) f
  revert this
  cases decodeHeaders cfg d f with
  | error e =>
    rintro (h | h)
    · exact Or.inl (by rw [h])
    · exact Or.inr (Or.inl (by rw [h]))
  | ok q =>
    obtain ⟨d', hs⟩ := q
    rintro ⟨h1, h2, h3, h4, h5, h6⟩
    exact Or.inr (Or.inr ⟨d', hs, rfl, h1, h2, h3, ⟨h4.headers, h4.names⟩, h5, h6⟩)

theorem init_names (cfg : Cfg) : (Enc.init cfg).names.map (·.1) = registered cfg.isRequest := by
  have : ∀ r, (numberNames (registered r) 0 []).map (·.1) = registered r := by intro r; cases r <;> decide +kernel
  exact this cfg.isRequest

/-- C130.  The buffer does not bound what is stored: for every positive buffer, without Huffman codes, and all different names
that are not in the table of registered names, of at most 65000 bytes, a session in which each message is one header with the
next name and no value is encoded; the table then has an entry for each name, the names are all stored once more, on both
sides, and the size that is counted is 0. -/
theorem C130_unbounded (cfg : Cfg) (hmax : 0 < cfg.maxSize) (hno : cfg.huffman = none) (order : Order) (ho : ∀ n t, (order n t).Perm t)
    (names : List Str) (hnd : names.Nodup) (hn : ∀ n ∈ names, n ∉ registered cfg.isRequest ∧ n ≠ b!":path" ∧ n.length ≤ 65000)
    (hb : ∀ n ∈ names, ∀ c ∈ n, c < 256) :
    ∃ st fs d outs, encodeAll order cfg (Enc.init cfg) (names.map fun n => [(n, [])]) = (st, .ok fs) ∧
      decodeAll cfg (Dec.init cfg) fs = .ok (d, outs) ∧ st.size = 0 ∧ d.size = 0 ∧
      st.table.map (·.1) = names ∧ st.names.map (·.1) = registered cfg.isRequest ++ names ∧
      d.headers.length = names.length ∧ d.names.length = (registered cfg.isRequest).length + names.length := by
  obtain ⟨st, fs, h1, h2, h3, h4⟩ := encodeAll_new order cfg hno names (Enc.init cfg) hmax rfl hnd (fun n hm => by
    obtain ⟨a, b, c⟩ := hn n hm
    exact ⟨b, c, by simp [Enc.init], by rw [init_names]; exact a⟩)
  have hbs : ByteSession (names.map fun n => [(n, [])]) := by
    intro m hm h hh
    obtain ⟨n, hnm, rfl⟩ := List.mem_map.1 hm
    rw [List.mem_singleton] at hh
    subst hh
    exact ⟨hb n hnm, by simp⟩
  obtain ⟨d, outs, hsy, hd, _⟩ := session_like (by omega) (Or.inl hno) ho hbs h1
  have hin := inStep hsy
  have ht : st.table.map (·.1) = names := by rw [h3]; simp [Enc.init]
  rw [init_names] at h4
  refine ⟨st, fs, d, outs, h1, hd, h2, by rw [← hin.size]; exact h2, ht, h4, ?_, ?_⟩
  · rw [← hin.count, ← ht, List.length_map]
  · rw [← hin.nameCount, ← List.length_map (f := (·.1)) (as := st.names), h4, List.length_append]

/-! ### Cases that meet the hypotheses -/

/-- Such names: `x`, `xx`, … as many as wanted. -/
example (n : Nat) (hn : n ≤ 60000) : let names := (List.range n).map fun i => List.replicate (i + 1) 120 ++ b!"-z"
    names.Nodup ∧ (∀ a ∈ names, a ∉ registered true ∧ a ≠ b!":path" ∧ a.length ≤ 65000) ∧ ∀ a ∈ names, ∀ c ∈ a, c < 256 := by
  intro names
  have hreg : ∀ a ∈ registered true, a.getLast? ≠ some 122 := by decide +kernel
  refine ⟨?_, fun a ha => ?_, fun a ha c hc => ?_⟩
  · refine List.Nodup.map (fun i j hij => ?_) List.nodup_range
    have := congrArg List.length hij
    simpa using this
  · obtain ⟨i, hi, rfl⟩ := List.mem_map.1 ha
    rw [List.mem_range] at hi
    refine ⟨fun hc => hreg _ hc (by simp), fun hc => ?_, by simp; omega⟩
    have := congrArg List.getLast? hc
    simp at this
  · obtain ⟨i, _, rfl⟩ := List.mem_map.1 ha
    rcases List.mem_append.1 hc with hc | hc
    · rw [List.eq_of_mem_replicate hc]; omega
    · simp at hc; omega

/-- What the decoder makes of the frame of the last of these messages, cut at each place: how many headers, and the last value. -/
def cuts (cfg : Cfg) (ms : List (List Hdr)) (m : List Hdr) : Option (List (Option Str)) :=
  match encodeAll (fun _ t => t) cfg (Enc.init cfg) ms with
  | (_, .error _) => none
  | (st, .ok fs) =>
    match (encodeHeaders (fun _ t => t) cfg st m).2, decodeAll cfg (Dec.init cfg) fs with
    | .ok f, .ok (d, _) => some ((List.range (f.length + 1)).map fun j =>
        match decodeHeaders cfg d (f.take j) with
        | .error _ => none
        | .ok (_, hs) => hs.getLast?.map (·.2))
    | _, _ => none

/-- A reference and a delta that adds `es` (C128_cut). -/
example : cuts ⟨32768, true, .full, none, true⟩ [[(b!":path", b!"/index")]] [(b!":path", b!"/index"), (b!":path", b!"/indexes")] =
    some (List.replicate 13 none ++ [some b!"/index", some b!"/indexe", some b!"/indexes"]) := by
  decide +kernel

/-- With Huffman codes (C128_noticed). -/
example : ((HCodec.make List.reverse requestStats).toOption.bind fun h =>
      cuts ⟨32768, true, .full, some h, true⟩ [[(b!":path", b!"/index")]] [(b!":path", b!"/indexes")]) =
    some (List.replicate 13 none ++ [some b!"/indexes"]) := by
  decide +kernel

/-- A frame nobody wrote (C129): one new header, and two references of which the second does not exist. -/
example : let cfg : Cfg := ⟨32768, true, .full, none, true⟩
    HeldWithin 30 (Dec.init cfg) ∧
    (decodeHeaders cfg (Dec.init cfg) [0, 0, 0, 0, 0, 0, 0, 0, 2, 0x21, 2, 65, 66, 0x80]).toOption.map (·.2) = some [(b!"accept", b!"AB"), (b!"accept", b!"AB")] ∧
    (decodeHeaders cfg (Dec.init cfg) [0, 0, 0, 0, 0, 0, 0, 0, 2, 0x21, 2, 65, 66, 0x81]).toOption.map (·.2) = none := by
  unfold HeldWithin
  decide +kernel

end Verif.Props
