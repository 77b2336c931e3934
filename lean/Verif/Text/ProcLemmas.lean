import Verif.Text.Session
import Verif.Text.SimpleProc
/-
The Processor of the `simple` codec with its parameters.
-/
namespace Verif.Text
open Verif Verif.Zlib Spec

/-! ### hexadecimal numbers -/

theorem hexDigit_char {n : Nat} (h : n < 16) : 48 ≤ hexDigit n ∧ hexDigit n ≤ 102 := by
  unfold hexDigit
  split <;> omega

theorem hexNat_chars (n : Nat) : ∀ c ∈ hexNat n, 48 ≤ c ∧ c ≤ 102 := by
  induction n using Nat.strongRecOn with
  | ind n ih =>
    unfold hexNat
    split
    · intro c hc
      rw [List.mem_singleton] at hc
      subst hc
      exact hexDigit_char (by omega)
    · intro c hc
      rcases List.mem_append.1 hc with hc | hc
      · exact ih (n / 16) (by omega) c hc
      · rw [List.mem_singleton] at hc
        subst hc
        exact hexDigit_char (Nat.mod_lt _ (by omega))

theorem hexInt_chars (t : Int) : ∀ c ∈ hexInt t, 45 ≤ c ∧ c ≤ 102 := by
  intro c hc
  cases t with
  | ofNat n => have := hexNat_chars n c hc; omega
  | negSucc n =>
    rcases List.mem_cons.1 hc with rfl | hc
    · omega
    · have := hexNat_chars (n + 1) c hc; omega

theorem dates_ok (C : DateLib) : DatesOk (some (dates C)) := by
  rintro d ⟨⟩ v x hx
  simp only [dates, Option.map_eq_some_iff] at hx
  obtain ⟨t, _, rfl⟩ := hx
  refine ⟨value_of_plain isWs_blank fun c hc => ?_, fun c hc => ?_⟩
  · have := hexInt_chars t c hc
    exact isWs_blank.visible c (by omega) (by omega)
  · have := hexInt_chars t c hc
    omega

theorem procDates_ok {L : Lib} (C : DateLib) (p : SimpleP L) : DatesOk (p.dates C) := by
  unfold SimpleP.dates
  split
  · exact dates_ok C
  · rintro d ⟨⟩

/-! ### what matches a date contains a space -/

theorem fitsAll_mem {p : List Place} {c : Nat} (hp : Place.lit c ∈ p) : ∀ {v : Str}, fitsAll p v = true → c ∈ v := by
  induction p with
  | nil => cases hp
  | cons q ps ih =>
    intro v hv
    cases v with
    | nil => simp [fitsAll] at hv
    | cons x xs =>
      simp only [fitsAll, Bool.and_eq_true] at hv
      rcases List.mem_cons.1 hp with rfl | hp
      · simp only [Place.fits, beq_iff_eq] at hv
        simp [hv.1]
      · exact List.mem_cons_of_mem _ (ih hp hv.2)

theorem dateMatch_space {v : Str} (h : dateMatch v = true) : 32 ∈ v := by
  simp only [dateMatch, List.any_eq_true] at h
  obtain ⟨p, hp, hv⟩ := h
  refine fitsAll_mem ?_ hv
  simp only [datePatterns, lits, words, digits, clock] at hp
  simp only [List.map_cons, List.map_nil, List.cons_append, List.nil_append, List.mem_cons, List.not_mem_nil, or_false] at hp
  rcases hp with rfl | rfl | rfl | rfl | rfl | rfl <;> simp

/-! ### sessions -/

/-- The zlib objects of a Processor are in step. -/
def InStep {L : Lib} (ok : Ok L) (p : SimpleP L) : Prop := ∀ z u, p.zlib = some (z, u) → ok.Paired z u ∧ p.st.seven = false

theorem procStep {L : Lib} (ok : Ok L) (C : DateLib) {flush : L.U → Option (L.U × Str)}
    (hfl : ∀ z u, ok.Paired z u → ∃ u', flush u = some (u', []) ∧ ok.Paired z u')
    {p : SimpleP L} (hp : InStep ok p) {h : Dict Str Str} (hm : SimpleMsg p.st.isRequest h) (hinv : Inv (p.dates C) p.st)
    (ha : p.st.seven = true → Ascii h) (ord : Dict Str Str → Dict Str Str) (hord : ∀ d, (ord d).Perm d) :
    ∃ p1 c p2 out, procCompress C ord p h = .ok (p1, c) ∧ procDecompress C flush ord p1 c = .ok (p2, out) ∧
      Same (normAll (p.dates C) h) out ∧ InStep ok p2 ∧ Inv (p2.dates C) p2.st ∧ p2.st.isRequest = p.st.isRequest ∧
      p2.st.seven = p.st.seven ∧ p2.date = p.date := by
  obtain ⟨st1, c, st2, out, h1, h2, h3, h4, h5, h6⟩ := step_spec (procDates_ok C p) hm hinv ha ord hord
  cases hz : p.zlib with
  | none =>
    refine ⟨{ p with st := st1 }, c, { p with st := st2 }, out, ?_, ?_, h3, ?_, h4, h5, h6, rfl⟩
    · simp only [procCompress, h1, hz, bind, Except.bind]
    · have : SimpleP.dates C ({ p with st := st1, zlib := none } : SimpleP L) = p.dates C := rfl
      simp only [procDecompress, hz, this, h2, bind, Except.bind]
    · intro z u hc
      rw [show (({ p with st := st2 } : SimpleP L)).zlib = p.zlib from rfl, hz] at hc
      cases hc
  | some zu =>
    obtain ⟨z, u⟩ := zu
    obtain ⟨hpair, hs⟩ := hp z u hz
    obtain ⟨u1, hu1, hp1⟩ := ok.unzip_zip z u c hpair
    obtain ⟨u2, hu2, hp2⟩ := hfl _ _ hp1
    refine ⟨{ p with st := st1, zlib := some ((L.zip z c).1, u) }, (L.zip z c).2,
      { p with st := st2, zlib := some ((L.zip z c).1, u2) }, out, ?_, ?_, h3, ?_, h4, h5, h6, rfl⟩
    · simp only [procCompress, h1, hz, bind, Except.bind]
    · have : (SimpleP.dates C { p with st := st1, zlib := some ((L.zip z c).1, u) } : Option Dates) = p.dates C := rfl
      simp only [procDecompress, hu1, hu2, List.append_nil, this, h2, bind, Except.bind]
    · intro z' u' hc
      cases hc
      exact ⟨hp2, by rw [← hs]; exact h6⟩

theorem procSession_spec {L : Lib} (ok : Ok L) (C : DateLib) {flush : L.U → Option (L.U × Str)}
    (hfl : ∀ z u, ok.Paired z u → ∃ u', flush u = some (u', []) ∧ ok.Paired z u')
    (ord : Dict Str Str → Dict Str Str) (hord : ∀ d, (ord d).Perm d) (hs : List (Dict Str Str)) :
    ∀ (p : SimpleP L), InStep ok p → Inv (p.dates C) p.st → (∀ h ∈ hs, SimpleMsg p.st.isRequest h) →
    (p.st.seven = true → ∀ h ∈ hs, Ascii h) →
    ∃ outs, procSession C flush ord p hs = .ok outs ∧ List.Forall₂ (fun h out => Same (normAll (p.dates C) h) out) hs outs := by
  induction hs with
  | nil => intro p _ _ _ _; exact ⟨[], rfl, .nil⟩
  | cons h hs ih =>
    intro p hp hinv hm ha
    obtain ⟨p1, c, p2, out, h1, h2, h3, h4, h5, h6, h7, h8⟩ :=
      procStep ok C hfl hp (hm h (by simp)) hinv (fun h' => ha h' h (by simp)) ord hord
    obtain ⟨outs, ho, hf⟩ := ih p2 h4 h5 (fun x hx => by rw [h6]; exact hm x (by simp [hx]))
      (fun h' x hx => ha (by rw [← h7]; exact h') x (by simp [hx]))
    have hd : p2.dates C = p.dates C := by unfold SimpleP.dates; rw [h8]
    rw [hd] at hf
    refine ⟨out :: outs, ?_, .cons h3 hf⟩
    simp only [procSession, h1, h2, ho, bind, Except.bind]

end Verif.Text
