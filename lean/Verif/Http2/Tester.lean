import Verif.Http2.Session
import Verif.Lib.Lemmas
import Mathlib.Data.List.Induction
/-
The http2 Processor seen by the tester: split_headers, the codec, join_headers.
-/
namespace Verif.Http2
open Verif Verif.Lib Verif.Lib.Spec

/-- Processor.compress called for one dictionary after the other (lib/processors.py 48-67 does so
with one Processor object per stream). -/
def compressAll (fuel : Nat) : Tab → List (Dict Str Str) → Option (Py (Tab × List (List Nat)))
  | t, [] => some (.ok (t, []))
  | t, m :: ms =>
    match compress fuel t m with
    | none => none
    | some (_, .error e) => some (.error e)
    | some (t, .ok f) =>
      match compressAll fuel t ms with
      | none => none
      | some (.error e) => some (.error e)
      | some (.ok (t, fs)) => some (.ok (t, f :: fs))

/-- Processor.decompress called for one frame after the other. -/
def decompressAll : Tab → List (List Nat) → Py (Tab × List (Dict Str Str))
  | t, [] => .ok (t, [])
  | t, f :: fs =>
    match decompress t f with
    | (_, .error e) => .error e
    | (t, .ok d) => do
      let (t, ds) ← decompressAll t fs
      pure (t, d :: ds)

theorem compressAll_eq (fuel : Nat) (ms : List (Dict Str Str)) : ∀ t,
    compressAll fuel t ms = encodeAll fuel t (ms.map splitHeaders) := by
  induction ms with
  | nil => intro t; rfl
  | cons m ms ih =>
    intro t
    simp only [compressAll, compress, List.map_cons, encodeAll]
    cases encodeHeaders fuel t (splitHeaders m) with
    | none => rfl
    | some r =>
      obtain ⟨t', e | f⟩ := r
      · rfl
      · simp only [ih]
        cases encodeAll fuel t' (ms.map splitHeaders) with
        | none => rfl
        | some q => cases q <;> rfl

theorem decompressAll_ok (fs : List (List Nat)) : ∀ t t' outs,
    decodeAll t fs = .ok (t', outs) → decompressAll t fs = .ok (t', outs.map joinHeaders) := by
  induction fs with
  | nil => intro t t' outs h; cases h; rfl
  | cons f fs ih =>
    intro t t' outs h
    simp only [decodeAll] at h
    simp only [decompressAll, decompress]
    cases hd : decodeHeaders t f with
    | mk t1 r =>
      rw [hd] at h
      cases r with
      | error e => cases h
      | ok hs =>
        simp only [bind, Except.bind, pure, Except.pure] at h ⊢
        cases hr : decodeAll t1 fs with
        | error e => rw [hr] at h; cases h
        | ok q =>
          obtain ⟨t2, hss⟩ := q
          rw [hr] at h
          cases h
          rw [ih _ _ _ hr]; rfl

theorem mem_extendNew (hs : List Hdr) : ∀ lst h, h ∈ extendNew lst hs ↔ h ∈ lst ∨ h ∈ hs := by
  induction hs with
  | nil => intro lst h; simp [extendNew]
  | cons x xs ih =>
    intro lst h
    rw [extendNew, ih]
    by_cases hx : x ∈ lst
    · rw [if_pos hx, List.mem_cons]
      constructor
      · rintro (h1 | h1)
        · exact Or.inl h1
        · exact Or.inr (Or.inr h1)
      · rintro (h1 | rfl | h1)
        · exact Or.inl h1
        · exact Or.inl hx
        · exact Or.inr h1
    · rw [if_neg hx, List.mem_append, List.mem_singleton, List.mem_cons, or_assoc]

/-- What split_headers produces. -/
theorem mem_splitHeaders (d : Dict Str Str) (h : Hdr) :
    h ∈ splitHeaders d ↔ ∃ v p, (h.1, v) ∈ d ∧ p ∈ splitOn (sepOf h.1) v ∧ h.2 = stripWs p := by
  unfold splitHeaders
  suffices ∀ (d : Dict Str Str) (lst : List Hdr),
      h ∈ d.foldl (fun lst (kv : Str × Str) =>
        let ch := if kv.1 = b!"cookie" then 59 else 0
        extendNew lst ((splitOn ch kv.2).map fun vs => (kv.1, stripWs vs))) lst ↔
      h ∈ lst ∨ ∃ v p, (h.1, v) ∈ d ∧ p ∈ splitOn (sepOf h.1) v ∧ h.2 = stripWs p by
    simpa using this d []
  intro d
  induction d with
  | nil => intro lst; simp
  | cons kv d ih =>
    intro lst
    rw [List.foldl_cons, ih, mem_extendNew, or_assoc]
    apply or_congr_right
    obtain ⟨k, w⟩ := kv
    obtain ⟨n, x⟩ := h
    simp only [List.mem_map, Prod.mk.injEq, List.mem_cons]
    constructor
    · rintro (⟨p, hp, rfl, rfl⟩ | ⟨v, p, h1, h2, h3⟩)
      · exact ⟨w, p, Or.inl ⟨rfl, rfl⟩, hp, rfl⟩
      · exact ⟨v, p, Or.inr h1, h2, h3⟩
    · rintro ⟨v, p, ⟨rfl, rfl⟩ | h1, h2, h3⟩
      · exact Or.inl ⟨p, h2, rfl, h3.symm⟩
      · exact Or.inr ⟨v, p, h1, h2, h3⟩

theorem joinWith_snoc (c : Nat) (vs : List Str) (v : Str) (h : vs ≠ []) :
    joinWith [c] (vs ++ [v]) = joinWith [c] vs ++ [c] ++ v := by
  induction vs with
  | nil => exact absurd rfl h
  | cons x xs ih =>
    cases xs with
    | nil => rfl
    | cons y ys =>
      have := ih (by simp)
      simp only [List.cons_append, joinWith] at this ⊢
      rw [this]; simp

/-- join_headers gives each name its values joined with its separator. -/
theorem joinHeaders_spec (l : List Hdr) :
    (joinHeaders l).WF ∧ ∀ n, (joinHeaders l).get? n =
      if valuesOf l n = [] then none else some (joinWith [sepOf n] (valuesOf l n)) := by
  induction l using List.reverseRecOn with
  | nil => exact ⟨Dict.wf_nil, fun n => by simp [joinHeaders, valuesOf, Dict.get?]⟩
  | append_singleton l x ih =>
    obtain ⟨ih1, ih2⟩ := ih
    obtain ⟨k, v⟩ := x
    have hstep : joinHeaders (l ++ [(k, v)]) = (joinHeaders l).set k (match (joinHeaders l).get? k with
        | some old => if k = b!"cookie" then old ++ [59] ++ v else old ++ [0] ++ v
        | none => v) := by
      unfold joinHeaders
      rw [List.foldl_append, List.foldl_cons, List.foldl_nil]
      cases Dict.get? (List.foldl _ _ l) k <;> rfl
    rw [hstep]
    refine ⟨ih1.set _ _, fun n => ?_⟩
    rw [Dict.get?_set]
    by_cases e : k = n
    · subst e
      have hv : valuesOf (l ++ [(k, v)]) k = valuesOf l k ++ [v] := by simp [valuesOf]
      rw [if_pos rfl, hv, ih2]
      by_cases hz : valuesOf l k = []
      · rw [if_pos hz, hz]; rfl
      · rw [if_neg hz, if_neg (by simp), joinWith_snoc _ _ _ hz]
        simp only [sepOf]
        by_cases hk : k = b!"cookie"
        · simp only [if_pos hk]
        · simp only [if_neg hk]
    · have hv : valuesOf (l ++ [(k, v)]) n = valuesOf l n := by simp [valuesOf, e]
      rw [if_neg e, hv, ih2]

theorem mem_valuesOf {l : List Hdr} {n v : Str} : v ∈ valuesOf l n ↔ (n, v) ∈ l := by
  unfold valuesOf
  simp only [List.mem_map, List.mem_filter, decide_eq_true_eq]
  constructor
  · rintro ⟨⟨a, b⟩, ⟨h1, h2⟩, h3⟩
    simp only at h2 h3
    subst h2 h3
    exact h1
  · intro h; exact ⟨(n, v), ⟨h, rfl⟩, rfl⟩

/-- What the tester sees in the decompressed dictionary: the pieces of the original values, with
all surrounding whitespace removed. -/
theorem shows_join {d : Dict Str Str} {out : List Hdr} (hout : ∀ h, h ∈ out ↔ h ∈ splitHeaders d)
    (n x : Str) :
    Shows (joinHeaders out) n x ↔ n ≠ b!":version" ∧ n ≠ b!":status-text" ∧ n ≠ b!"connection" ∧
      ∃ v p, (n, v) ∈ d ∧ IsPiece (sepOf n) v p ∧ stripWs p = x := by
  unfold Shows
  refine and_congr_right fun _ => and_congr_right fun _ => and_congr_right fun _ => ?_
  obtain ⟨hwf, hget⟩ := joinHeaders_spec out
  have hval : ∀ y, (n, y) ∈ out ↔ ∃ v p, (n, v) ∈ d ∧ IsPiece (sepOf n) v p ∧ stripWs p = y := by
    intro y
    rw [hout, mem_splitHeaders]
    constructor
    · rintro ⟨v, p, h1, h2, h3⟩; exact ⟨v, p, h1, mem_splitOn.1 h2, h3.symm⟩
    · rintro ⟨v, p, h1, h2, h3⟩; exact ⟨v, p, h1, mem_splitOn.2 h2, h3.symm⟩
  have hsep : ∀ y, (n, y) ∈ out → sepOf n ∉ y := by
    intro y hy hc
    obtain ⟨v, p, _, h2, rfl⟩ := (hval y).1 hy
    exact h2.1 (stripBy_sub hc)
  have hid : ∀ y, (n, y) ∈ out → stripSpace y = y := by
    intro y hy
    obtain ⟨v, p, _, h2, rfl⟩ := (hval y).1 hy
    exact stripBy_stripBy (fun c hc => by simp at hc; subst hc; rfl) p
  rw [← hval]
  constructor
  · rintro ⟨v, p, h1, h2, h3⟩
    rw [Dict.mem_iff_get? hwf, hget] at h1
    split at h1
    · cases h1
    · rename_i hne
      cases h1
      rw [← mem_splitOn, splitOn_joinWith hne (fun y hy => hsep y (mem_valuesOf.1 hy)), mem_valuesOf] at h2
      rw [isTrim_iff, hid p h2] at h3
      rw [← h3]; exact h2
  · intro h
    have hne : valuesOf out n ≠ [] := by
      intro hc
      have := mem_valuesOf.2 h
      rw [hc] at this; cases this
    refine ⟨joinWith [sepOf n] (valuesOf out n), x, ?_, ?_, ?_⟩
    · rw [Dict.mem_iff_get? hwf, hget, if_neg hne]
    · rw [← mem_splitOn, splitOn_joinWith hne (fun y hy => hsep y (mem_valuesOf.1 hy)), mem_valuesOf]
      exact h
    · rw [isTrim_iff]; exact hid x h

/-- Stripping spaces or all whitespace is the same if what spaces leave has no other whitespace
at its ends. -/
theorem stripWs_eq_stripSpace {p : Str}
    (h : ∀ x, IsTrim p x → ∀ c, x.head? = some c ∨ x.getLast? = some c → ¬ (9 ≤ c ∧ c ≤ 13)) :
    stripWs p = stripSpace p := by
  obtain ⟨a, b, h1, h2, h3, h4, h5⟩ := stripBy_spec (· == 32) p
  have hx := h (stripSpace p) (isTrim_iff.2 rfl)
  have hws : ∀ c, (stripSpace p).head? = some c ∨ (stripSpace p).getLast? = some c → isWs c = false := by
    intro c hc
    have e1 := hx c hc
    have e2 : (c == 32) = false := by
      rcases hc with hc | hc
      · exact h4 c hc
      · exact h5 c hc
    simp only [isWs, Bool.or_eq_false_iff, Bool.and_eq_false_iff, decide_eq_false_iff_not, e2, and_true]
    omega
  unfold stripWs
  conv_lhs => rw [h1]
  refine stripBy_unique ?_ ?_ (fun c hc => hws c (Or.inl hc)) (fun c hc => hws c (Or.inr hc))
  · intro c hc; have := h2 c hc; simp at this; subst this; rfl
  · intro c hc; have := h3 c hc; simp at this; subst this; rfl

end Verif.Http2
