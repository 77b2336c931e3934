import Verif.Delta2.RangeCost
import Verif.Props.Wire
/-
Property theorems about frames of delta2 that have been cut off (C126) and about the effort that a frame can cause (C127).
-/
namespace Verif.Props
open Verif Verif.Bits Verif.Huff Verif.Delta2

/-! ### C126 -/

/-- C126, without the whole frame header the deserialiser raises. -/
theorem C126_header (p : Packing) (h : Huffman) (hh : p.huff = some h) (hc : IsCoder h) (gs : Groups)
    (hg : GroupsOk p.ints gs) (gid : Nat) (hid : gid < 256) (payload : BitBucket)
    (hp : outputAll p gs BitBucket.empty = .ok payload) (hsize : bytesOfStorage payload ≤ 65527) (bytes : Str)
    (hb : opsToRealOps p gs gid = .ok bytes) (n : Nat) (hn : n < 9) :
    realOpsToOps p (bytes.take n) = .error .standard := by
  obtain ⟨codes, hk⟩ := hc.codes
  rw [← hh] at hk
  obtain ⟨b, e, hbits⟩ := payload_bits hk gs hg
  rw [hp] at e
  cases e
  simp only [bytesOfStorage, hbits] at hsize
  obtain ⟨bytes', e, _, hl, _⟩ := wire_spec hk gs hg gid hid
  rw [hb] at e
  cases e
  exact (wire_cut hk gs hg gid hid (by omega) bytes hb n (by omega)).1 hn

/-- C126, behind the header no cut is noticed: whatever is cut off, the deserialiser returns the group and exactly the
operations that are complete, without an exception; at least the last one is lost.  `j` operations are returned if the frame
of the first `j` would not be longer than what is left, but that of the first `j + 1` would. -/
theorem C126_cut (p : Packing) (h : Huffman) (hh : p.huff = some h) (hc : IsCoder h) (gs : Groups)
    (hg : GroupsOk p.ints gs) (gid : Nat) (hid : gid < 256) (payload : BitBucket)
    (hp : outputAll p gs BitBucket.empty = .ok payload) (hsize : bytesOfStorage payload ≤ 65527) (bytes : Str)
    (hb : opsToRealOps p gs gid = .ok bytes) (n : Nat) (h9 : 9 ≤ n) (hn : n < bytes.length) :
    ∃ (j : Nat) (f f' : Str), j < (gs.flatMap (·.2)).length ∧
      realOpsToOps p (bytes.take n) = .ok (gid, (gs.flatMap (·.2)).take j) ∧
      opsToRealOps p (takeOps j gs) gid = .ok f ∧ opsToRealOps p (takeOps (j + 1) gs) gid = .ok f' ∧
      f.length ≤ n ∧ n < f'.length := by
  obtain ⟨codes, hk⟩ := hc.codes
  rw [← hh] at hk
  obtain ⟨b, e, hbits⟩ := payload_bits hk gs hg
  rw [hp] at e
  cases e
  simp only [bytesOfStorage, hbits] at hsize
  exact wire_cut_exact hk gs hg gid hid (by omega) bytes hb n hn h9

theorem takeOps_flat (gs : Groups) : ∀ m : Nat, (takeOps m gs).flatMap (·.2) = (gs.flatMap (·.2)).take m := by
  induction gs with
  | nil => intro m; simp [takeOps]
  | cons g gs ih => intro m; simp only [takeOps, List.flatMap_cons, ih, List.take_append]

example (h : Huffman) : GroupsOk (Packing.mk .varint (some h)).ints sampleOps := sample_ok

/-- The sample of C23 has 53 bytes and 20 operations; cut to 34 bytes it gives 16. -/
example : (flatCoder.bind fun h => (opsToRealOps ⟨.varint, some h⟩ sampleOps 5).bind fun bytes =>
    (realOpsToOps ⟨.varint, some h⟩ (bytes.take 34)).map fun r => (bytes.length, r.1, r.2.length)) = .ok (53, 5, 16) := by
  decide +kernel

/-- C126, the receiver: it executes the operations that are complete, and nothing else tells it that there were more. -/
theorem C126_receiver (cfg : Config) (h : Huffman) (hc : IsCoder h) (ord : List Int → List Int) (s : Codec) (gs : Groups)
    (hg : GroupsOk cfg.ints gs) (gid : Nat) (hid : gid < 256) (payload : BitBucket)
    (hp : outputAll ⟨cfg.ints, some h⟩ gs BitBucket.empty = .ok payload) (hsize : bytesOfStorage payload ≤ 65527)
    (bytes : Str) (hb : opsToRealOps ⟨cfg.ints, some h⟩ gs gid = .ok bytes) (n : Nat) (h9 : 9 ≤ n) (hn : n < bytes.length) :
    ∃ j < (gs.flatMap (·.2)).length, executeReal cfg ⟨cfg.ints, some h⟩ ord s (bytes.take n) =
      execute cfg ord (findOrMake s gid) ((gs.flatMap (·.2)).take j) gid := by
  obtain ⟨j, _, _, hj, e, _⟩ := C126_cut ⟨cfg.ints, some h⟩ h rfl hc gs hg gid hid payload hp hsize bytes hb n h9 hn
  exact ⟨j, hj, by simp only [executeReal, bind, Except.bind, e]⟩

/-- Two headers. -/
def twoHeaders : Groups :=
  [(.ekvsto, [{ opcode := .ekvsto, key := some b!"a", val := some b!"1" },
              { opcode := .ekvsto, key := some b!"x-secure", val := some b!"yes" }])]

/-- The configuration without parameters. -/
def cfg126 : Config :=
  { maxBytes := 4096, maxEntries := 190, maxIndex := 255, ints := .varint, hgAdjust := false, implicitAdd := false,
    refcntVals := false, onlyEtoggles := false, fromEnd := true }

example (pyInt : Str → Py Int) : Config.ofParams pyInt [] = .ok cfg126 := rfl

/-- C126, "a frame that has been cut off is noticed" is false: a fresh receiver delivers the first header only, and does not
raise. -/
theorem C126_false : ∃ h s bytes, flatCoder = .ok h ∧ Codec.init cfg126 = .ok s ∧
    opsToRealOps ⟨.varint, some h⟩ twoHeaders 1 = .ok bytes ∧
    (executeReal cfg126 ⟨.varint, some h⟩ id s bytes).map (·.2) = .ok [(b!"a", b!"1"), (b!"x-secure", b!"yes")] ∧
    (executeReal cfg126 ⟨.varint, some h⟩ id s (bytes.take (bytes.length - 1))).map (·.2) = .ok [(b!"a", b!"1")] := by
  have key : (do
      let h ← flatCoder
      let s ← Codec.init cfg126
      let bytes ← opsToRealOps ⟨.varint, some h⟩ twoHeaders 1
      let x ← executeReal cfg126 ⟨.varint, some h⟩ id s bytes
      let y ← executeReal cfg126 ⟨.varint, some h⟩ id s (bytes.take (bytes.length - 1))
      pure (x.2, y.2)) = .ok ([(b!"a", b!"1"), (b!"x-secure", b!"yes")], [(b!"a", b!"1")]) := by decide +kernel
  cases e1 : flatCoder with
  | error e => rw [e1] at key; exact absurd key (by simp [bind, Except.bind])
  | ok h =>
    simp only [e1, bind, Except.bind] at key
    cases e2 : Codec.init cfg126 with
    | error e => rw [e2] at key; exact absurd key (by simp)
    | ok s =>
      simp only [e2] at key
      cases e3 : opsToRealOps ⟨.varint, some h⟩ twoHeaders 1 with
      | error e => rw [e3] at key; exact absurd key (by simp)
      | ok bytes =>
        simp only [e3] at key
        cases e4 : executeReal cfg126 ⟨.varint, some h⟩ id s bytes with
        | error e => rw [e4] at key; exact absurd key (by simp)
        | ok x =>
          simp only [e4] at key
          cases e5 : executeReal cfg126 ⟨.varint, some h⟩ id s (bytes.take (bytes.length - 1)) with
          | error e => rw [e5] at key; exact absurd key (by simp)
          | ok y =>
            simp only [e5, pure, Except.pure, Except.ok.injEq, Prod.mk.injEq] at key
            refine ⟨h, s, bytes, rfl, rfl, e3, ?_, ?_⟩
            · rw [e4]; simp only [Except.map, key.1]
            · rw [e5]; simp only [Except.map, key.2]

/-! ### C127 -/

/-- C127: with variable-length indices, which is what a Processor without parameters uses, a frame of at most
`12 + log8 (length of the storage + 64 + v)` bytes makes the receiver build a set of `v + 1` indices. -/
theorem C127_effort (cfg : Config) (hi : cfg.ints = .varint) (h : Huffman) (hc : IsCoder h) (st : Storage)
    (hst : st.static.ring.length = 65) (hlru : st.lru.ring.length < 2 ^ 16) (gid : Nat) (hid : gid < 256) (v : Nat)
    (hv : v + 1 < 2 ^ 63) :
    ∃ (bytes : Str) (ops ops' : List Delta2.Op) (e : Exec),
      bytes.length ≤ 12 + Nat.log 8 (st.lru.ring.length + 64 + v) ∧ (∀ x ∈ bytes, x < 256) ∧
      realOpsToOps ⟨cfg.ints, some h⟩ bytes = .ok (gid, ops) ∧ lruToHg cfg st ops = .ok ops' ∧
      execOps ops' { storage := st } = .ok e ∧ e.stoggles.length = v + 1 := by
  obtain ⟨codes, hk⟩ := hc.codes
  generalize hL : st.lru.ring.length = L at *
  cases hf : cfg.fromEnd with
  | true =>
    have hk' : StrOk (Packing.mk cfg.ints (some h)).huff codes := hk
    obtain ⟨bytes, hlt, hlen, _, e⟩ := range_frame hk' hi gid hid (L + 64 + v) (L + 64) (by omega) (by omega)
    have hm : Nat.log 8 (L + 64) ≤ Nat.log 8 (L + 64 + v) := Nat.log_mono_right (by omega)
    refine ⟨bytes, _, [range .strang (-(v : Int)) 0], _, by omega, hlt, e, ?_, exec_range _ _ _ (by omega) (by omega) (by omega), ?_⟩
    · have e1 : lruIdxToHgIdx st ((L + 64 : Nat) : Int) = .ok 0 := by
        unfold lruIdxToHgIdx
        rw [if_neg (by omega), hst, hL]
        congr 1
        omega
      have e2 : lruIdxToHgIdx st ((L + 64 + v : Nat) : Int) = .ok (-(v : Int)) := by
        unfold lruIdxToHgIdx
        rw [if_neg (by omega), hst, hL]
        congr 1
        omega
      simp only [lruToHg, hf, if_true, translateOps, translateOp, optMapPy, range, bind, Except.bind, e1, e2, pure, Except.pure]
    · simp only [xrange_length]
      omega
  | false =>
    have hk' : StrOk (Packing.mk cfg.ints (some h)).huff codes := hk
    obtain ⟨bytes, hlt, hlen, _, e⟩ := range_frame hk' hi gid hid 0 v (by omega) (by omega)
    have hm : Nat.log 8 v ≤ Nat.log 8 (L + 64 + v) := Nat.log_mono_right (by omega)
    have h0 : Nat.log 8 0 = 0 := by simp
    refine ⟨bytes, _, [range .strang 0 (v : Int)], _, by omega, hlt, e, ?_, exec_range _ _ _ (by omega) (by omega) (by omega), ?_⟩
    · simp only [lruToHg, hf]
      rfl
    · simp only [xrange_length]
      omega

example : cfg126.ints = .varint := rfl

example : (Codec.init cfg126).map (fun s => (s.storage.static.ring.length, s.storage.lru.ring.length)) = .ok (65, 0) := by
  decide +kernel

/-- 22 bytes are enough for 2^30 indices. -/
example : 12 + Nat.log 8 (0 + 64 + (2 ^ 30 - 1)) = 22 := by
  have : Nat.log 8 (0 + 64 + (2 ^ 30 - 1)) = 10 := by
    rw [Nat.log_eq_iff (by omega)]
    decide
  rw [this]

end Verif.Props
