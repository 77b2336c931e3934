import Verif.Http2.Tester
import Verif.Props.Http2
import Verif.Props.Lib
/-
C12: the http2 Processor as driven and judged by the tester.
-/
namespace Verif.Props
open Verif Verif.Lib Verif.Lib.Spec Verif.Http2

/-- C12, exactly what comes back.  After any session the Processor gets through, decompression
succeeds and the tester sees in each decompressed dictionary exactly the pieces of the original
values with all whitespace around them removed. -/
theorem C12_http2_processor_exact (isRequest : Bool) (bufferSize : Int) (fuel : Nat)
    (msgs : List (Dict Str Str)) (te : Tab) (frames : List (List Nat))
    (henc : compressAll fuel (initTab isRequest bufferSize) msgs = some (.ok (te, frames))) :
    ∃ td outs, decompressAll (initTab isRequest bufferSize) frames = .ok (td, outs) ∧
      List.Forall₂ (fun (out d : Dict Str Str) => ∀ n x, Shows out n x ↔
        n ≠ b!":version" ∧ n ≠ b!":status-text" ∧ n ≠ b!"connection" ∧
        ∃ v p, (n, v) ∈ d ∧ IsPiece (sepOf n) v p ∧ stripWs p = x) outs msgs := by
  rw [compressAll_eq] at henc
  obtain ⟨td, outs, h1, h2⟩ := C01_http2_session_roundtrip isRequest bufferSize fuel _ te frames henc
  refine ⟨td, _, decompressAll_ok _ _ _ _ h1, ?_⟩
  rw [List.forall₂_map_right_iff] at h2
  rw [List.forall₂_map_left_iff]
  exact h2.imp fun out d h n x => shows_join h n x

/-- C12.  The tester reports no mismatch for any message of any session the Processor gets
through, if no value piece starts or ends with whitespace other than the space. -/
theorem C12_http2_no_mismatch (isRequest : Bool) (bufferSize : Int) (fuel : Nat)
    (msgs : List (Dict Str Str)) (te : Tab) (frames : List (List Nat))
    (hws : ∀ d ∈ msgs, ∀ n v p x, (n, v) ∈ d → IsPiece (sepOf n) v p → IsTrim p x →
      ∀ c, x.head? = some c ∨ x.getLast? = some c → ¬ (9 ≤ c ∧ c ≤ 13))
    (henc : compressAll fuel (initTab isRequest bufferSize) msgs = some (.ok (te, frames))) :
    ∃ td outs, decompressAll (initTab isRequest bufferSize) frames = .ok (td, outs) ∧
      List.Forall₂ (fun d out => ∀ (ord : List Hdr → List Hdr), (∀ l, (ord l).Perm l) →
        ∀ a b, compareHeaders ord d a out b = []) msgs outs := by
  obtain ⟨td, outs, h1, h2⟩ := C12_http2_processor_exact isRequest bufferSize fuel msgs te frames henc
  refine ⟨td, outs, h1, ?_⟩
  clear h1 henc
  have h3 := h2.flip
  induction h3 with
  | nil => exact List.Forall₂.nil
  | @cons d out ds outs hd _ ih =>
    refine List.Forall₂.cons ?_ (ih (fun d' hd' => hws d' (by simp [hd'])) (by cases h2; assumption))
    intro ord hord a b
    rw [C46_compare_headers_iff ord hord]
    intro n x
    rw [hd n x]
    unfold Shows
    refine and_congr_right fun _ => and_congr_right fun _ => and_congr_right fun _ => ?_
    constructor
    · rintro ⟨v, p, q1, q2, q3⟩
      refine ⟨v, p, q1, q2, ?_⟩
      rw [stripWs_eq_stripSpace (fun y hy => hws d (by simp) n v p y q1 q2 hy)]
      exact isTrim_iff.1 q3
    · rintro ⟨v, p, q1, q2, q3⟩
      refine ⟨v, p, q1, q2, ?_⟩
      rw [stripWs_eq_stripSpace (fun y hy => hws d (by simp) n v p y q1 q2 hy)] at q3
      exact isTrim_iff.2 q3

/-- A session whose dictionaries meet the hypotheses: cookie crumbs, several values, spaces. -/
example :
    let msgs : List (Dict Str Str) :=
      [[(b!":path", b!"/a"), (b!"cookie", b!"a=1; b=2;a=1"), (b!"set-cookie", b!"x" ++ [0] ++ b!" y ")],
       [(b!"cookie", b!"b=2"), (b!":path", b!"/a")]]
    (compressAll 5 (initTab true 4096) msgs).isSome = true ∧
    (∀ d ∈ msgs, ∀ kv ∈ d, ∀ p ∈ splitOn (sepOf kv.1) kv.2, ∀ c ∈ p, ¬ (9 ≤ c ∧ c ≤ 13)) := by
  refine ⟨by decide +kernel, by decide +kernel⟩

/-- C12.  The condition is needed: a value starting with a tab is reported as a mismatch. -/
theorem C12_http2_tab_mismatch :
    ∃ te frames td out, compressAll 5 (initTab true 4096) [[(b!"a", 9 :: b!"x")]] = some (.ok (te, frames)) ∧
      decompressAll (initTab true 4096) frames = .ok (td, [out]) ∧
      compareHeaders id [(b!"a", 9 :: b!"x")] b!"orig" out b!"http2" ≠ [] :=
  ⟨_, _, _, _, rfl, rfl, by decide +kernel⟩

end Verif.Props
