import Verif.Http2.Reach
/- How often the encoder goes over the references that were evicted. -/
namespace Verif.Http2
open Verif Spec

theorem loopTab_enough (R : List Hdr) : ∀ n t t' l, loopTab n t R = some (t', l) → ∀ m, l.length < m →
    loopTab m t R = some (t', l) := by
  intro n
  induction n with
  | zero => intro t t' l h; simp [loopTab] at h
  | succ n ih =>
    intro t t' l h m hm
    obtain ⟨m, rfl⟩ : ∃ m', m = m' + 1 := ⟨m - 1, by omega⟩
    unfold loopTab at h ⊢
    by_cases hr : R = []
    · simp only [hr, if_true] at h ⊢; exact h
    · simp only [hr, if_false] at h ⊢
      by_cases hl : (passTab t R).2 = []
      · simp only [hl, if_true] at h ⊢; exact h
      · simp only [hl, if_false] at h ⊢
        cases h2 : loopTab n (passTab t R).1 R with
        | none => simp [h2] at h
        | some q =>
          obtain ⟨t2, l2⟩ := q
          simp only [h2, Option.some.injEq, Prod.mk.injEq] at h
          obtain ⟨rfl, rfl⟩ := h
          have := List.length_pos_iff.2 hl
          rw [ih _ _ _ h2 m (by simp only [List.length_append] at hm; omega)]

theorem resendLoop_mono (R : List Hdr) : ∀ n t r, resendLoop n t R = some r → ∀ m, n ≤ m → resendLoop m t R = some r := by
  intro n
  induction n with
  | zero => intro t r h; simp [resendLoop] at h
  | succ n ih =>
    intro t r h m hm
    obtain ⟨m, rfl⟩ : ∃ m', m = m' + 1 := ⟨m - 1, by omega⟩
    unfold resendLoop at h ⊢
    by_cases hr : R = []
    · simp only [hr, if_true] at h ⊢; exact h
    · simp only [hr, if_false] at h ⊢
      cases h1 : resendPass t R with
      | error e => rw [h1] at h; exact h
      | ok q =>
        obtain ⟨t1, w1, more⟩ := q
        rw [h1] at h
        cases more with
        | false => exact h
        | true =>
          simp only at h ⊢
          cases h2 : resendLoop n t1 R with
          | none => simp [h2] at h
          | some q => rw [h2] at h; rw [ih _ _ h2 m (by omega)]; exact h

theorem encodeBody_mono {t : Tab} {hs : List Hdr} {n m : Nat} {r : Py (Tab × List Nat)}
    (h : encodeBody n t hs = some r) (hm : n ≤ m) : encodeBody m t hs = some r := by
  unfold encodeBody at h ⊢
  dsimp only at h ⊢
  cases h1 : encodeRemoved { t with entries := updateTable (computeDiff t.entries hs).entries } (computeDiff t.entries hs).removed with
  | error e => rw [h1] at h; exact h
  | ok q1 =>
    simp only [h1] at h ⊢
    cases h2 : encodeList q1.1 (computeDiff t.entries hs).remaining with
    | error e => rw [h2] at h; exact h
    | ok q2 =>
      simp only [h2] at h ⊢
      cases h3 : resendLoop n q2.1 (computeDiff t.entries hs).referenced with
      | none => simp [h3] at h
      | some q3 => rw [h3] at h; rw [resendLoop_mono _ _ _ _ h3 m hm]; exact h

theorem encodeHeaders_mono {t : Tab} {hs : List Hdr} {n m : Nat} {q : Tab × Py (List Nat)}
    (h : encodeHeaders n t hs = some q) (hm : n ≤ m) : encodeHeaders m t hs = some q := by
  unfold encodeHeaders at h ⊢
  cases h1 : encodeBody n t hs with
  | none => simp [h1] at h
  | some r => rw [h1] at h; rw [encodeBody_mono h1 hm]; exact h

/-- If the encoder ever returns, it does so after at most one pass more than there are headers. -/
theorem encodeHeaders_passes {t : Tab} (hsz : SizeOK t) (hn : (hdrs t.entries).Nodup) {hs : List Hdr} {n : Nat}
    {q : Tab × Py (List Nat)} (h : encodeHeaders n t hs = some q) (m : Nat) (hm : hs.length < m) :
    encodeHeaders m t hs = some q := by
  obtain ⟨t', r⟩ := q
  obtain ⟨l, w, hl, _, _, _⟩ := encodeHeaders_cases hn h
  obtain ⟨k1, k2, _⟩ := keptRefs_spec hn hs
  obtain ⟨s1, s2, _, _⟩ := sentTab_inv hsz hn hs
  have hnd := loopTab_nodup k1 s1 s2 hl
  have hsub := (loopTab_sub _ _ _ _ _ hl).1
  have h1 := (List.subperm_of_subset hnd hsub).length_le
  have h2 : (keptRefs t hs).length ≤ hs.length := by
    have := k2.length_eq
    simp at this; omega
  have h3 := loopTab_enough _ _ _ _ _ hl m (by omega)
  cases he : encodeHeaders m t hs with
  | none => rw [encodeHeaders_none hn, h3] at he; simp at he
  | some q' =>
    have a := encodeHeaders_mono h (Nat.le_max_left n m)
    have b := encodeHeaders_mono he (Nat.le_max_right n m)
    rw [a] at b
    exact b.symm

end Verif.Http2
