import Verif.Delta2.WireLemmas
import Verif.Delta2.ToggleLemmas
import Verif.Props.Fields
/-
C23, C24 and C31: operations of delta2 on the wire, and ranges of toggles.
-/
namespace Verif.Props
open Verif Verif.Bits Verif.Huff Verif.Delta2

/-- The objects used by the Processor are coders. -/
theorem coder_shipped (table : FreqTable)
    (hshipped : table = requestTable ∨ table = responseTable ∨ table = oldRequestTable ∨ table = oldResponseTable) :
    ∃ h : Huffman, huffman exact cpyOrder table = .ok h ∧ IsCoder h := by
  obtain ⟨tree, h, e, h1, h2, h3, h4⟩ := C20_shipped table hshipped
  exact ⟨h, e, Nat, whole, cpyOrder, table, 1, tree, h1, h2, h3, h4⟩

/-! ### C23 -/

/-- C23, the serialiser never raises on operations that can be packed. -/
theorem C23_total (p : Packing) (h : Huffman) (hh : p.huff = some h) (hc : IsCoder h) (gs : Groups)
    (hg : GroupsOk p.ints gs) (gid : Nat) (hid : gid < 256) :
    ∃ payload bytes, outputAll p gs BitBucket.empty = .ok payload ∧ opsToRealOps p gs gid = .ok bytes := by
  obtain ⟨codes, hk⟩ := hc.codes
  rw [← hh] at hk
  obtain ⟨b, e, _⟩ := payload_bits hk gs hg
  obtain ⟨bytes, e', _⟩ := wire_spec hk gs hg gid hid
  exact ⟨b, bytes, e, e'⟩

/-- C23: operations of which the payload has at most 65527 bytes are read back from the bytes, in order, with
the group id. -/
theorem C23_wire (p : Packing) (h : Huffman) (hh : p.huff = some h) (hc : IsCoder h) (gs : Groups)
    (hg : GroupsOk p.ints gs) (gid : Nat) (hid : gid < 256) (payload : BitBucket)
    (hp : outputAll p gs BitBucket.empty = .ok payload) (hsize : bytesOfStorage payload ≤ 65527) :
    ∃ bytes, opsToRealOps p gs gid = .ok bytes ∧ (∀ x ∈ bytes, x < 256) ∧
      realOpsToOps p bytes = .ok (gid, gs.flatMap (·.2)) := by
  obtain ⟨codes, hk⟩ := hc.codes
  rw [← hh] at hk
  obtain ⟨b, e, hn⟩ := payload_bits hk gs hg
  rw [hp] at e
  cases e
  obtain ⟨bytes, e1, e2, _, e3⟩ := wire_spec hk gs hg gid hid
  refine ⟨bytes, e1, e2, ?_⟩
  simp only [bytesOfStorage, hn] at hsize
  rw [e3, taken_all hk _ (blocks_ok hg) _ _ (by omega), blocks_flat]

/-- Operations of five kinds, 17 of the first. -/
def sampleOps : Groups :=
  [(.stoggl, (List.range 17).map fun i : Nat => toggle .stoggl (i * i : Nat)),
   (.skvsto, [{ opcode := .skvsto, key := some (b!"accept"), val := some (b!"*/*") }]),
   (.strang, [range .strang 3 7]),
   (.eclone, [{ opcode := .eclone, index := some 0, val := some [] }]),
   (.etoggl, [])]

theorem sample_ok : GroupsOk .varint sampleOps := by
  intro g hg op hop
  simp only [sampleOps, List.mem_cons, List.not_mem_nil, or_false] at hg
  rcases hg with rfl | rfl | rfl | rfl | rfl
  · simp only [List.mem_map, List.mem_range] at hop
    obtain ⟨i, _, rfl⟩ := hop
    refine ⟨rfl, ⟨fun f => by cases f <;> rfl, ?_, ?_, ?_, ?_⟩⟩ <;> intro v hv <;> simp [toggle] at hv
    subst hv
    simp only [IntOk]
    positivity
  · simp only [List.mem_cons, List.not_mem_nil, or_false] at hop
    subst hop
    refine ⟨rfl, ⟨fun f => by cases f <;> rfl, ?_, ?_, ?_, ?_⟩⟩ <;> intro v hv <;> simp at hv
    · subst hv; decide
    · subst hv; decide
  · simp only [List.mem_cons, List.not_mem_nil, or_false] at hop
    subst hop
    refine ⟨rfl, ⟨fun f => by cases f <;> rfl, ?_, ?_, ?_, ?_⟩⟩ <;> intro v hv <;> simp [range] at hv <;> subst hv <;>
      simp [IntOk]
  · simp only [List.mem_cons, List.not_mem_nil, or_false] at hop
    subst hop
    refine ⟨rfl, ⟨fun f => by cases f <;> rfl, ?_, ?_, ?_, ?_⟩⟩ <;> intro v hv <;> simp at hv <;> subst hv <;>
      simp [IntOk]
  · simp at hop

/-- The object for `flatTable`. -/
def flatCoder : Py Huffman := (buildCodeTree whole flatTable 1).bind (buildCodeTable cpyOrder)

example : (flatCoder.bind fun h => (outputAll ⟨.varint, some h⟩ sampleOps BitBucket.empty).map
    fun b => decide (bytesOfStorage b ≤ 65527)) = .ok true := by decide +kernel
example : (flatCoder.bind fun h => (opsToRealOps ⟨.varint, some h⟩ sampleOps 5).bind
    (realOpsToOps ⟨.varint, some h⟩)) = .ok (5, sampleOps.flatMap (·.2)) := by decide +kernel

/-! ### C31 -/

theorem chunks_one (ops : List Op) (h1 : 0 < ops.length) (h2 : ops.length ≤ 16) : chunks ops.length ops = [ops] := by
  obtain ⟨k, hk⟩ : ∃ k, ops.length = k + 1 := ⟨ops.length - 1, by omega⟩
  rw [hk, chunks, if_pos (by omega), List.take_of_length_le h2, List.drop_of_length_le h2]
  cases k <;> rfl

theorem blocks_append (gs gs' : Groups) : blocks (gs ++ gs') = blocks gs ++ blocks gs' := by
  simp [blocks]

/-- C31, what holds of payloads of any size: the operations survive if the last block (up to 16 operations)
begins before the last byte of the first 65527 bytes, because the code writes the whole payload after the
first frame header and the deserialiser looks at the length between blocks only.

Missing: payloads that go on; see `C31_lost`. -/
theorem C31_last_partial (p : Packing) (h : Huffman) (hh : p.huff = some h) (hc : IsCoder h) (gs : Groups)
    (oc : Opcode) (ops : List Op) (hops : 0 < ops.length ∧ ops.length ≤ 16)
    (hg : GroupsOk p.ints (gs ++ [(oc, ops)])) (gid : Nat) (hid : gid < 256) (payload : BitBucket)
    (hp : outputAll p gs BitBucket.empty = .ok payload) (hsize : numBits payload + 8 < 8 * 65527) :
    ∃ bytes, opsToRealOps p (gs ++ [(oc, ops)]) gid = .ok bytes ∧
      realOpsToOps p bytes = .ok (gid, gs.flatMap (·.2) ++ ops) := by
  obtain ⟨codes, hk⟩ := hc.codes
  rw [← hh] at hk
  have hg' : GroupsOk p.ints gs := fun g hm => hg g (by simp [hm])
  obtain ⟨b, e, hn⟩ := payload_bits hk gs hg'
  rw [hp] at e
  cases e
  rw [hn] at hsize
  obtain ⟨bytes, e1, _, _, e3⟩ := wire_spec hk _ hg gid hid
  refine ⟨bytes, e1, ?_⟩
  have hbl : blocks (gs ++ [(oc, ops)]) = blocks gs ++ [(oc, ops)] := by
    rw [blocks_append]
    simp [blocks, chunks_one ops hops.1 hops.2]
  have hlast := blocks_ok hg (oc, ops) (by rw [hbl]; simp)
  have h9 := blockE_len hk hlast (0 + (blocksE p.ints codes (blocks gs) 0).length)
  have hlen : (blocksE p.ints codes (blocks gs ++ [(oc, ops)]) 0).length =
      (blocksE p.ints codes (blocks gs) 0).length +
        (blockE p.ints codes (oc, ops) (0 + (blocksE p.ints codes (blocks gs) 0).length)).length := by
    rw [blocksE_append]
    simp [Emit.seq, blocksE, Emit.nil]
  rw [e3, hbl, taken_append_last _ _ _ _ _ _ (by rw [hlen]; omega), ← hbl, blocks_flat]
  simp

/-- C31, what is lost: of a message beginning with operations of 65527 bytes or more, the operations after
these are never read back. -/
theorem C31_lost (p : Packing) (h : Huffman) (hh : p.huff = some h) (hc : IsCoder h) (gs gs' : Groups)
    (hg : GroupsOk p.ints (gs ++ gs')) (gid : Nat) (hid : gid < 256) (payload : BitBucket)
    (hp : outputAll p gs BitBucket.empty = .ok payload) (hsize : 8 * 65527 ≤ numBits payload + 8) :
    ∃ bytes l, opsToRealOps p (gs ++ gs') gid = .ok bytes ∧ realOpsToOps p bytes = .ok (gid, l) ∧
      l <+: gs.flatMap (·.2) := by
  obtain ⟨codes, hk⟩ := hc.codes
  rw [← hh] at hk
  have hg' : GroupsOk p.ints gs := fun g hm => hg g (by simp [hm])
  obtain ⟨b, e, hn⟩ := payload_bits hk gs hg'
  rw [hp] at e
  cases e
  rw [hn] at hsize
  obtain ⟨bytes, e1, _, _, e3⟩ := wire_spec hk _ hg gid hid
  obtain ⟨k, hkk⟩ := taken_append_lost p.ints codes (blocks gs) (blocks gs')
    (8 * min (((blocksE p.ints codes (blocks (gs ++ gs')) 0).length + 7) / 8) 65527 : Nat) 0 (by omega)
  refine ⟨bytes, _, e1, e3, ?_⟩
  rw [blocks_append] at hkk ⊢
  rw [hkk, ← blocks_flat gs]
  exact (List.take_prefix k _).flatMap _

/-- Storing one header. -/
def storeOp (s : Str) : Op := { opcode := .skvsto, key := some (b!"a"), val := some s }

/-- C31 is false of the code, for every Huffman object and for every header value with 600000 or more characters: a header
with this value is sent, and a toggle. The toggle does not arrive. -/
theorem C31_false (h : Huffman) (hc : IsCoder h) (s : Str) (hs : ∀ c ∈ s, c < 256) (hlen : 600000 ≤ s.length) :
    ∃ bytes l,
      opsToRealOps ⟨.varint, some h⟩ [(.skvsto, [storeOp s]), (.stoggl, [toggle .stoggl 0])] 1 = .ok bytes ∧
      realOpsToOps ⟨.varint, some h⟩ bytes = .ok (1, l) ∧ toggle .stoggl 0 ∉ l := by
  have hop : OpOk .varint (storeOp s) := by
    refine ⟨fun f => by cases f <;> rfl, ?_, ?_, ?_, ?_⟩ <;> intro v hv <;> simp [storeOp] at hv <;> subst hv
    · decide
    · exact hs
  have hg2 : GroupsOk .varint ([(.skvsto, [storeOp s])] ++ [(.stoggl, [toggle .stoggl 0])]) := by
    intro g hm
    simp only [List.singleton_append, List.mem_cons, List.not_mem_nil, or_false] at hm
    intro op hop'
    rcases hm with rfl | rfl <;> simp only [List.mem_cons, List.not_mem_nil, or_false] at hop' <;> subst hop'
    · exact ⟨rfl, hop⟩
    · refine ⟨rfl, ⟨fun f => by cases f <;> rfl, ?_, ?_, ?_, ?_⟩⟩ <;> intro v hv <;> simp [toggle] at hv
      subst hv
      simp [IntOk]
  have hg : GroupsOk .varint [(.skvsto, [storeOp s])] := fun g hm => hg2 g (by simp_all)
  obtain ⟨codes, hk⟩ := hc.codes
  obtain ⟨b, e, hn⟩ := payload_bits (p := ⟨.varint, some h⟩) hk [(.skvsto, [storeOp s])] hg
  have hbig : 600000 ≤ (blocksE .varint codes (blocks [(.skvsto, [storeOp s])]) 0).length := by
    obtain ⟨_, hf, hcodes⟩ := hk.ex
    have hbl : blocks [(.skvsto, [storeOp s])] = [(.skvsto, [storeOp s])] := rfl
    rw [hbl]
    obtain ⟨m, hm⟩ := fieldsE_ge .varint codes (storeOp s) .val packingOrder (0 + 8) (by simp [packingOrder])
    simp only [fieldE, storeOp] at hm
    have := strE_len hcodes hk.len s hs m
    simp only [blocksE, Emit.seq, List.length_append, blockE, natBits_length, opsE, opE, storeOp] at hm ⊢
    omega
  obtain ⟨bytes, l, e1, e2, hl⟩ := C31_lost ⟨.varint, some h⟩ h rfl hc _ _ hg2 1 (by omega) b e
    (by rw [hn]; exact_mod_cast (by omega : 8 * 65527 ≤ (blocksE .varint codes (blocks [(.skvsto, [storeOp s])]) 0).length + 8))
  refine ⟨bytes, l, e1, e2, fun hm => ?_⟩
  have := hl.subset hm
  simp [storeOp, toggle] at this

/-- There are such values. -/
example : ∃ s : Str, (∀ c ∈ s, c < 256) ∧ 600000 ≤ s.length :=
  ⟨List.replicate 600000 97, fun c h => by rw [List.eq_of_mem_replicate h]; omega, by rw [List.length_replicate]⟩

/-- The witness is about an object that exists. -/
example : ∃ h : Huffman, huffman exact cpyOrder requestTable = .ok h ∧ IsCoder h := coder_shipped _ (.inl rfl)

/-- A header with a value of any length alone still survives. -/
example (h : Huffman) (hc : IsCoder h) (s : Str) (hs : ∀ c ∈ s, c < 256) : ∃ bytes,
    opsToRealOps ⟨.varint, some h⟩ ([] ++ [(.ekvsto, [{ opcode := .ekvsto, key := some [], val := some s }])]) 1 = .ok bytes ∧
    realOpsToOps ⟨.varint, some h⟩ bytes = .ok (1, [{ opcode := .ekvsto, key := some [], val := some s }]) := by
  refine C31_last_partial ⟨.varint, some h⟩ h rfl hc [] .ekvsto _ (by simp) ?_ 1 (by omega) _ rfl (by decide)
  intro g hg op hop
  simp only [List.nil_append, List.mem_cons, List.not_mem_nil, or_false] at hg
  subst hg
  simp only [List.mem_cons, List.not_mem_nil, or_false] at hop
  subst hop
  refine ⟨rfl, ⟨fun f => by cases f <;> rfl, ?_, ?_, ?_, ?_⟩⟩ <;> intro v hv <;> simp at hv
  · subst hv; simp
  · subst hv; exact hs

/-! ### C24 -/

/-- C24: the toggles and ranges that replace the toggles of some indices denote these indices, each as often
as it occurred; every range has two indices at least, and there are not more operations than before. -/
theorem C24_ranges (oc new : Opcode) (is : List Int) : ∃ (ts : List Int) (rs : List (Int × Int)),
    figureOutRanges (is.map (toggle oc)) new = .ok (ts.map (toggle oc), rs.map fun r => range new r.1 r.2) ∧
    (∀ r ∈ rs, r.1 < r.2) ∧ (ts ++ rs.flatMap fun r => interval r.1 r.2).Perm is ∧
    ts.length + rs.length ≤ is.length :=
  figureOutRanges_spec oc new is

/-- C24 for sets of indices: a toggle or range of the result is about `i` exactly if `i` is in the set, and each index
is denoted once. -/
theorem C24_sets (oc new : Opcode) (is : List Int) (hn : is.Nodup) : ∃ (ts : List Int) (rs : List (Int × Int)),
    figureOutRanges (is.map (toggle oc)) new = .ok (ts.map (toggle oc), rs.map fun r => range new r.1 r.2) ∧
    (ts ++ rs.flatMap fun r => interval r.1 r.2).Nodup ∧
    (∀ i, i ∈ is ↔ i ∈ ts ∨ ∃ r ∈ rs, r.1 ≤ i ∧ i ≤ r.2) := by
  obtain ⟨ts, rs, e, _, hp, _⟩ := figureOutRanges_spec oc new is
  refine ⟨ts, rs, e, hp.nodup_iff.2 hn, fun i => ?_⟩
  rw [← hp.mem_iff, List.mem_append, List.mem_flatMap]
  refine or_congr_right (exists_congr fun r => and_congr_right fun _ => ?_)
  simp only [interval, List.mem_map, List.mem_range]
  constructor
  · rintro ⟨k, hk, rfl⟩
    omega
  · rintro ⟨h1, h2⟩
    exact ⟨(i - r.1).toNat, by omega, by omega⟩

example : figureOutRanges ([9, 4, 5, 6, 1, 7].map (toggle .stoggl)) .strang =
    .ok ([1, 9].map (toggle .stoggl), [range .strang 4 7]) := by decide +kernel
example : figureOutRanges ([9, 4, 5, 6, 1].map (toggle .stoggl)) .strang =
    .ok ([1, 4, 5, 6, 9].map (toggle .stoggl), []) := by decide +kernel

end Verif.Props
