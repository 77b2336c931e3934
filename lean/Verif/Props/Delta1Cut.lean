import Verif.Delta1.Cut
import Verif.Props.Delta1
/-
Property theorems about frames of delta that have been cut off (C131).
-/
namespace Verif.Props
open Verif Verif.Bits Verif.Huff Verif.Delta1

/-- C131, for at most 256 operations of each kind and a message that fits into one frame: whatever is cut off, the
deserialiser raises StandardError. -/
theorem C131_cut (h : Huffman) (hc : IsCoder1 h) (gs : List (Opcode × List Delta1.Op)) (hg : OpsOk gs)
    (hle : ∀ g ∈ gs, g.2.length ≤ 256) (gid : Nat) (hid : gid < 256) (bytes : Str) (hb : opsToRealOps h gs gid = .ok bytes)
    (hfit : bytes.length ≤ 65536) (n : Nat) (hn : n < bytes.length) :
    realOpsToOps h (bytes.take n) = .error .standard := by
  obtain ⟨codes, hk, h257⟩ := hc.codes
  obtain ⟨bytes', _, _, e, -, -, -, -, hsz, -⟩ := wire_spec hk h257 gs hg.groups gid hid
  rw [hb] at e
  cases e
  exact wire_cut hk h257 gs hg.groups hle gid hid (hsz hfit) bytes hb n hn

/-- C131 is false of messages of more than one frame: the last 9 bytes are never looked at. -/
theorem C131_large_false (h : Huffman) (hc : IsCoder1 h) (gs : List (Opcode × List Delta1.Op)) (hg : OpsOk gs)
    (hle : ∀ g ∈ gs, g.2.length ≤ 256) (gid : Nat) (hid : gid < 256) (bytes : Str) (hb : opsToRealOps h gs gid = .ok bytes)
    (hbig : 65536 < bytes.length) (n : Nat) (hn : bytes.length ≤ n + 9) :
    realOpsToOps h (bytes.take n) = realOpsToOps h bytes ∧ (realOpsToOps h bytes).isOk := by
  obtain ⟨codes, hk, h257⟩ := hc.codes
  obtain ⟨m, hm, hr⟩ := wire_rest hk h257 gs hg.groups hle gid hid bytes hb hbig
  obtain ⟨bytes', e1, e2⟩ := wire_taken hk h257 gs hg.groups hle gid hid
  rw [hb] at e1
  cases e1
  exact ⟨hr n (by omega), by rw [e2]; rfl⟩

/-- The hypotheses are met: the 47 bytes of toggles, a range, a clone, a new header and one that is not stored. -/
example : ∃ (h : Huffman) (bytes : Str), IsCoder1 h ∧ OpsOk [(.toggl, [.toggl 70, .toggl 80]), (.trang, [.trang 90 95]),
    (.clone, [.clone 3 b!"x"]), (.kvsto, [.kvsto b!"name" b!"value"]), (.eref, [.eref b!":path" b!"/"])] ∧
    opsToRealOps h [(.toggl, [.toggl 70, .toggl 80]), (.trang, [.trang 90 95]), (.clone, [.clone 3 b!"x"]),
      (.kvsto, [.kvsto b!"name" b!"value"]), (.eref, [.eref b!":path" b!"/"])] 7 = .ok bytes := by
  obtain ⟨h, -, hc⟩ := coder1_shipped oldRequestTable (.inl rfl)
  have hg : OpsOk [(.toggl, [.toggl 70, .toggl 80]), (.trang, [.trang 90 95]), (.clone, [.clone 3 b!"x"]),
      (.kvsto, [.kvsto b!"name" b!"value"]), (.eref, [.eref b!":path" b!"/"])] := by
    intro g hm op ho
    simp only [List.mem_cons, List.not_mem_nil, or_false] at hm
    rcases hm with rfl | rfl | rfl | rfl | rfl <;> simp only [List.mem_cons, List.not_mem_nil, or_false] at ho
    · rcases ho with rfl | rfl <;> exact ⟨rfl, by decide⟩
    all_goals subst ho; exact ⟨rfl, by decide⟩
  obtain ⟨bytes, e, -⟩ := C62_total h hc _ hg 7 (by omega)
  exact ⟨h, bytes, hc, hg, e⟩

/-- The beginnings of this frame, by the shipped coder: none of them is accepted. -/
example : ((do
    let h ← Delta1.huffman oldRequestTable
    let bytes ← opsToRealOps h [(.toggl, [.toggl 70, .toggl 80]), (.trang, [.trang 90 95]), (.clone, [.clone 3 b!"x"]),
      (.kvsto, [.kvsto b!"name" b!"value"]), (.eref, [.eref b!":path" b!"/"])] 7
    pure (bytes.length, (List.range 47).map fun n => (realOpsToOps h (bytes.take n)).isOk)).toOption) =
    some (47, List.replicate 47 false) := by decide +kernel

end Verif.Props
