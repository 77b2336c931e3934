import Verif.Delta2.Cut
import Verif.Delta2.CodecSets
import Verif.Delta2.Codec
import Mathlib.Data.Nat.Log
/-
How much a short frame can make the receiver do.
-/
namespace Verif.Delta2
open Verif Verif.Bits Verif.Bits.Spec Verif.Huff Verif.Huff.Spec

theorem tailBits_log (fuel : Nat) : ∀ v : Nat, v ≤ fuel → (tailBits fuel v).length ≤ 4 * (Nat.log 8 v + 1) := by
  induction fuel with
  | zero => intro v _; simp [tailBits]
  | succ fuel ih =>
    intro v hv
    rw [tailBits]
    split
    · rename_i h7
      have hs : v >>> 3 = v / 8 := by rw [Nat.shiftRight_eq_div_pow]
      have := ih (v >>> 3) (by rw [hs]; omega)
      rw [hs] at this
      rw [List.length_append, natBits_length, hs, Nat.log_of_one_lt_of_le (by omega) (by omega : 8 ≤ v)]
      omega
    · rw [natBits_length]; omega

theorem varBits_log (v : Nat) : (varBits v).length ≤ 8 + 4 * Nat.log 8 v := by
  unfold varBits
  split
  · rw [natBits_length]; omega
  · have h1 := tailBits_log (v - 15) (v - 15) le_rfl
    have h2 : Nat.log 8 (v - 15) ≤ Nat.log 8 v := Nat.log_mono_right (by omega)
    rw [List.length_append, natBits_length]
    omega

theorem range_blocks (a b : Nat) : blocks [(.strang, [range .strang a b])] = [(.strang, [range .strang a b])] := rfl

theorem range_ok (a b : Nat) : GroupsOk .varint [(.strang, [range .strang a b])] := by
  intro g hg op hop
  simp only [List.mem_singleton] at hg
  subst hg
  simp only [List.mem_singleton] at hop
  subst hop
  refine ⟨rfl, ⟨fun f => by cases f <;> rfl, ?_, ?_, ?_, ?_⟩⟩ <;> intro v hv <;> simp [range] at hv <;> subst hv <;>
    simp [IntOk]

theorem range_bits (codes : List (List Bool)) (a b : Nat) :
    (blocksE .varint codes (blocks [(.strang, [range .strang a b])]) 0).length ≤
      24 + 4 * Nat.log 8 a + 4 * Nat.log 8 b := by
  have h1 := varBits_log a
  have h2 := varBits_log b
  rw [range_blocks]
  simp only [blocksE, Emit.seq, Emit.nil, blockE, opsE, opE, fieldsE, fieldE, packingOrder, range, intE,
    List.length_append, natBits_length, List.length_nil, Int.toNat_natCast]
  omega

/-- The frame of a range. -/
theorem range_frame {p : Packing} {codes : List (List Bool)} (hk : StrOk p.huff codes) (hp : p.ints = .varint) (gid : Nat)
    (hg : gid < 256) (a b : Nat) (ha : a < 2 ^ 64) (hb : b < 2 ^ 64) :
    ∃ bytes, (∀ x ∈ bytes, x < 256) ∧ 2 * bytes.length ≤ 25 + Nat.log 8 a + Nat.log 8 b ∧
      opsToRealOps p [(.strang, [range .strang a b])] gid = .ok bytes ∧
      realOpsToOps p bytes = .ok (gid, [range .strang a b]) := by
  have hbits := range_bits codes a b
  have hok := range_ok a b
  rw [← hp] at hbits hok
  have la : Nat.log 8 a ≤ 64 := by
    have : Nat.log 8 a < 64 := Nat.log_lt_of_lt_pow' (by omega) (Nat.lt_of_lt_of_le ha (Nat.pow_le_pow_left (by omega) 64))
    omega
  have lb : Nat.log 8 b ≤ 64 := by
    have : Nat.log 8 b < 64 := Nat.log_lt_of_lt_pow' (by omega) (Nat.lt_of_lt_of_le hb (Nat.pow_le_pow_left (by omega) 64))
    omega
  obtain ⟨bytes, e1, hlt, hb1⟩ := wire_one hk _ hok gid hg (by omega)
  obtain ⟨bytes', e2, _, _, e3⟩ := wire_spec hk _ hok gid hg
  rw [e1] at e2
  cases e2
  have hlen := congrArg List.length hb1
  simp only [bitsOf_length, List.length_append, headE_len, padZeros, List.length_replicate] at hlen
  refine ⟨bytes, hlt, by omega, e1, ?_⟩
  generalize hP : (blocksE p.ints codes (blocks [(Opcode.strang, [range .strang (a : Int) (b : Int)])]) 0).length = P at *
  have hmin : min ((P + 7) / 8) 65527 = (P + 7) / 8 := by omega
  rw [e3, hmin, taken_all hk _ (blocks_ok hok) _ _ (by rw [hP]; omega), blocks_flat]
  rfl

theorem xrange_length (a b : Int) : (xrange a b).length = (b - a).toNat := by simp [xrange]

theorem xrange_nodup (a b : Int) : (xrange a b).Nodup := by
  unfold xrange
  refine List.Nodup.map ?_ List.nodup_range
  intro x y h
  simpa using h

theorem exec_range (st : Storage) (a b : Int) (ha : -2 ^ 63 ≤ a ∧ a < 2 ^ 63) (hb : -2 ^ 63 ≤ b + 1 ∧ b + 1 < 2 ^ 63)
    (hab : b + 1 - a < 2 ^ 63) :
    execOps [range .strang a b] { storage := st } = .ok { storage := st, stoggles := xrange a (b + 1) } := by
  have h := toggle_append (a := []) (b := xrange a (b + 1)) (by simpa using xrange_nodup _ _)
  have hx : xrangePy a (b + 1) = .ok (xrange a (b + 1)) := if_pos ⟨ha.1, ha.2, hb.1, hb.2, hab⟩
  simp only [execOps, execOp, range, Op.idx, Op.start, bind, Except.bind, hx, pure, Except.pure, h, List.nil_append]

end Verif.Delta2
