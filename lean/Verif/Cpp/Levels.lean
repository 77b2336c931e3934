import Verif.Cpp.Decode
/-
BuildDecodeHelper: every word finds the code it begins with.
-/
namespace Verif.Cpp
open Verif Huff

/-- The symbols of these codes are in the table, with these lengths. -/
def InTable (codes : List CodeEntry) (len : Nat → Nat) (seg : List (Nat × Nat)) : Prop :=
  ∀ c ∈ seg, c.2 < 2 ^ 16 ∧ ∃ e, codes[c.2]? = some e ∧ e.len = len c.2

/-- What a call of BuildDecodeHelper at level `k` (from bit `8 * k` on) must do with codes that fill the
words from `p` on: append tables in which each of the words is found. -/
def LevelOk (codes : List CodeEntry) (len : Nat → Nat) (rec : List (Nat × Nat) → Nat → Nat → Tables → Py Tables) (k : Nat) : Prop :=
  ∀ (seg : List (Nat × Nat)) (p bw : Nat) (st : Tables), Part len p seg (p + 2 ^ (32 - 8 * k)) → 2 ^ (32 - 8 * k) ∣ p →
    0 < bw → bw ≤ 8 → 8 * k + bw ≤ 32 → (bw = 8 ∨ ∀ c ∈ seg, len c.2 ≤ 8 * k + bw) → (∀ c ∈ seg, 8 * k < len c.2) →
    (seg.Pairwise fun a b => len a.2 ≤ len b.2) → InTable codes len seg → st.branches.length + seg.length ≤ 257 →
    st.entries.length ≤ 256 * st.branches.length →
    ∃ D E, rec seg (8 * k) bw st = .ok ⟨st.branches ++ E, st.entries ++ D⟩ ∧ HeadValid D ∧ D.length ≤ 256 * E.length ∧
      E.length + 1 ≤ seg.length ∧
      ∀ F Br, Has F st.entries.length (filled DecodeEntry.none D) → Has Br st.branches.length E → ∀ w, p ≤ w →
        w < p + 2 ^ (32 - 8 * k) → ∃ c ∈ seg, c.1 ≤ w ∧ w < c.1 + span len c.2 ∧ Look Br F w (4 - k) st.branches.length c.2

theorem make_valid (s n : Nat) : (DecodeEntry.make s n).valid = true := rfl

theorem store_mid {α : Type} (T X Z : List α) (x y : α) (i : Nat) (hi : i = T.length + X.length) :
    store (T ++ (X ++ (x :: Z))) i y = .ok (T ++ (X ++ (y :: Z))) := by
  unfold store
  rw [if_pos (by simp; omega)]
  congr 1
  rw [List.set_append_right _ _ (by omega), List.set_append_right _ _ (by omega)]
  have : i - T.length - X.length = 0 := by omega
  rw [this]
  rfl

/-- The word at distance `x` from the first of a level, counted in units. -/
theorem unit_idx {U N p x : Nat} (hU : 0 < U) (hp : N * U ∣ p) (hx : x < N * U) : (p + x) / U % N = x / U := by
  obtain ⟨a, rfl⟩ := hp
  rw [show N * U * a + x = U * (N * a) + x by ring, Nat.mul_add_div hU, Nat.mul_add_mod]
  exact Nat.mod_eq_of_lt (Nat.div_lt_of_lt_mul (by rw [Nat.mul_comm]; exact hx))

theorem runs_ok {codes : List CodeEntry} {len : Nat → Nat} {rec : List (Nat × Nat) → Nat → Nat → Tables → Py Tables} {k bw : Nat}
    (hrec : k < 3 → LevelOk codes len rec (k + 1)) (hbw : 0 < bw) (hbw8 : bw ≤ 8) (h32 : 8 * k + bw ≤ 32)
    (U N : Nat) (hUe : U = 2 ^ (32 - (8 * k + bw))) (hNe : N = 2 ^ bw) (p : Nat) (hp : N * U ∣ p) (T : List DecodeEntry)
    (bidx : Nat) (fuel : Nat) :
    ∀ (seg : List (Nat × Nat)) (j : Nat) (X Ds : List DecodeEntry) (B : List Branch),
    seg.length ≤ fuel → Part len (p + j * U) seg (p + N * U) → X.length = j →
    (bw = 8 ∨ ∀ c ∈ seg, len c.2 ≤ 8 * k + bw) → (∀ c ∈ seg, 8 * k < len c.2) →
    (seg.Pairwise fun a b => len a.2 ≤ len b.2) → InTable codes len seg →
    B.length + seg.length ≤ 257 + (if j = 0 then 1 else 0) →
    (T ++ (X ++ (List.replicate (N - j) DecodeEntry.none ++ Ds))).length ≤ 256 * B.length →
    ∃ Y D E r, buildRuns codes rec bidx T.length (8 * k) bw fuel seg
        ⟨B, T ++ (X ++ (List.replicate (N - j) DecodeEntry.none ++ Ds))⟩ =
        .ok ⟨B ++ E, T ++ (X ++ (Y ++ (Ds ++ D)))⟩ ∧
      Y.length = N - j ∧ (Y = [] ∨ HeadValid Y) ∧ (D = [] ∨ HeadValid D) ∧ D.length ≤ 256 * E.length ∧
      E.length + r ≤ seg.length ∧ (j < N → 1 ≤ r) ∧ (j = 0 → 2 ≤ r) ∧
      ∀ F Br, Has F (T.length + N + Ds.length) (filled DecodeEntry.none D) → Has Br B.length E → ∀ w, p + j * U ≤ w →
        w < p + N * U → ∃ c ∈ seg, c.1 ≤ w ∧ w < c.1 + span len c.2 ∧
          ∃ e, (filled DecodeEntry.none Y)[(w - (p + j * U)) / U]? = some e ∧
            (e = DecodeEntry.make c.2 bidx ∨ Look Br F w (3 - k) e.next c.2) := by
  have hU : 0 < U := by rw [hUe]; exact Nat.two_pow_pos _
  have hN2 : 2 ≤ N := by
    rw [hNe]
    calc 2 = 2 ^ 1 := rfl
      _ ≤ 2 ^ bw := Nat.pow_le_pow_right (by decide) hbw
  have hNU : N * U = 2 ^ (32 - 8 * k) := by rw [hUe, hNe, ← pow_add]; congr 1; omega
  induction fuel with
  | zero =>
    intro seg j X Ds B hf hpart hX _ _ _ _ _ _
    obtain rfl : seg = [] := List.length_eq_zero_iff.1 (by omega)
    have hjN : j = N := by
      have := hpart.nil_eq
      exact Nat.eq_of_mul_eq_mul_right hU (by omega)
    subst hjN
    refine ⟨[], [], [], 0, by simp [buildRuns], by simp, .inl rfl, .inl rfl, by simp, by simp, by omega, by omega, ?_⟩
    intro F Br _ _ w h1 h2
    omega
  | succ fuel ih =>
    intro seg j X Ds B hf hpart hX hlen hgt hsorted hin hB hsize
    cases hseg : seg with
    | nil =>
      subst hseg
      have hjN : j = N := by
        have := hpart.nil_eq
        exact Nat.eq_of_mul_eq_mul_right hU (by omega)
      subst hjN
      refine ⟨[], [], [], 0, by simp [buildRuns], by simp, .inl rfl, .inl rfl, by simp, by simp, by omega, by omega, ?_⟩
      intro F Br _ _ w h1 h2
      omega
    | cons c cs =>
      rw [← hseg]
      obtain ⟨v, sym⟩ := c
      have hmem : (v, sym) ∈ seg := by rw [hseg]; simp
      obtain ⟨hv, hvhi, hl0, hl32⟩ := hpart.bounds _ hmem
      have hveq : v = p + j * U := by
        have h0 := hpart
        rw [hseg] at h0
        cases h0; rfl
      simp only at hv hvhi hl0 hl32
      have hspan0 : 0 < span len sym := Nat.two_pow_pos _
      have hjN : j < N := by
        by_contra hc
        have := Nat.mul_le_mul_right U (Nat.le_of_not_lt hc)
        omega
      have hj1 : (j + 1) * U ≤ N * U := Nat.mul_le_mul_right U hjN
      have hj1' : (j + 1) * U = j * U + U := by ring
      have hidx : v / U % N = j := by
        rw [hveq, unit_idx hU hp (by omega), Nat.mul_div_cancel _ hU]
      have hci : codeIdx (8 * k) bw v = .ok j := by
        rw [codeIdx_ok hbw h32, ← hUe, ← hNe, hidx]
      have hgtc := hgt _ hmem
      simp only at hgtc
      obtain ⟨hs16, ent, hent, hentl⟩ := hin _ hmem
      -- the codes behind a run that ends at unit j'
      have hnext : ∀ (rest : List (Nat × Nat)) (j' : Nat), j < j' → Part len (p + j' * U) rest (p + N * U) →
          ∀ c ∈ rest.head?, c.1 / 2 ^ (32 - (8 * k + bw)) % 2 ^ bw ≠ j := by
        intro rest j' hj' hr c hc
        obtain ⟨rest', rfl⟩ := List.head?_eq_some_iff.1 hc
        obtain ⟨hb1, hb2, hb3, hb4⟩ := hr.bounds c (by simp)
        have hcs : 0 < span len c.2 := Nat.two_pow_pos _
        have := Nat.mul_le_mul_right U hj'
        rw [← hUe, ← hNe]
        have hx : c.1 = p + (c.1 - p) := by omega
        rw [hx, unit_idx hU hp (by omega)]
        have h1 : (j + 1) ≤ (c.1 - p) / U := by
          rw [Nat.le_div_iff_mul_le hU]
          have h3 : (j + 1) * U ≤ j' * U := this
          omega
        omega
      -- behind the run
      have hjoin : ∀ (e : DecodeEntry) (g : Nat) (rest : List (Nat × Nat)) (Ds' : List DecodeEntry) (E0 : List Branch), e.valid = true → 0 < g →
          (j = 0 → g < N) → j + g ≤ N →
          rest.length ≤ fuel → Part len (p + (j + g) * U) rest (p + N * U) → (∀ c ∈ rest, c ∈ seg) → rest.Sublist seg →
          E0.length + 1 + rest.length ≤ seg.length → (B ++ E0).length + rest.length ≤ 257 → Ds'.length ≤ 256 * E0.length →
          (Ds' = [] ∨ HeadValid Ds') →
          ∃ Y D E r, buildRuns codes rec bidx T.length (8 * k) bw fuel rest
              ⟨B ++ E0, T ++ (X ++ (e :: (List.replicate (N - j - 1) DecodeEntry.none ++ (Ds ++ Ds'))))⟩ =
              .ok ⟨B ++ (E0 ++ E), T ++ (X ++ ((e :: (List.replicate (g - 1) DecodeEntry.none ++ Y)) ++ (Ds ++ (Ds' ++ D))))⟩ ∧
            Y.length = N - (j + g) ∧ (Y = [] ∨ HeadValid Y) ∧ (D = [] ∨ HeadValid D) ∧ D.length ≤ 256 * E.length ∧
            E0.length + E.length + (1 + r) ≤ seg.length ∧ (j = 0 → 1 ≤ r) ∧
            ∀ F Br, Has F (T.length + N + (Ds ++ Ds').length) (filled DecodeEntry.none D) → Has Br (B ++ E0).length E →
              ∀ w, p + (j + g) * U ≤ w → w < p + N * U → ∃ c ∈ seg, c.1 ≤ w ∧ w < c.1 + span len c.2 ∧
                ∃ e', (filled DecodeEntry.none (e :: (List.replicate (g - 1) DecodeEntry.none ++ Y)))[(w - (p + j * U)) / U]? = some e' ∧
                  (e' = DecodeEntry.make c.2 bidx ∨ Look Br F w (3 - k) e'.next c.2) := by
        intro e g rest Ds' E0 hev hg hg0 hjg hrf hrp hrs hsub hE hB' hDs' _
        have heq : T ++ (X ++ (e :: (List.replicate (N - j - 1) DecodeEntry.none ++ (Ds ++ Ds')))) =
            T ++ ((X ++ (e :: List.replicate (g - 1) DecodeEntry.none)) ++ (List.replicate (N - (j + g)) DecodeEntry.none ++ (Ds ++ Ds'))) := by
          have : List.replicate (N - j - 1) DecodeEntry.none =
              List.replicate (g - 1) DecodeEntry.none ++ List.replicate (N - (j + g)) DecodeEntry.none := by
            rw [List.replicate_append_replicate]
            congr 1
            omega
          rw [this]
          simp only [List.append_assoc, List.cons_append]
        obtain ⟨Y, D, E, r, e1, e2, e3, e4, e5, e6, e7, e8, e9⟩ := ih rest (j + g) (X ++ (e :: List.replicate (g - 1) DecodeEntry.none))
          (Ds ++ Ds') (B ++ E0) hrf hrp (by simp; omega)
          (by rcases hlen with h | h
              · exact .inl h
              · exact .inr fun c hc => h c (hrs c hc))
          (fun c hc => hgt c (hrs c hc)) (hsorted.sublist hsub) (fun c hc => hin c (hrs c hc))
          (by rw [if_neg (by omega)]; omega)
          (by
            have h1 := congrArg List.length heq
            rw [← h1]
            simp only [List.length_append, List.length_cons, List.length_replicate] at hsize ⊢
            omega)
        refine ⟨Y, D, E, r, ?_, e2, e3, e4, e5, by omega, fun hj => e7 (by have := hg0 hj; omega), ?_⟩
        · rw [heq, e1]
          simp
        · intro F Br hF hBr w hw1 hw2
          obtain ⟨c, hc, c1, c2, e', c3, c4⟩ := e9 F Br hF hBr w hw1 hw2
          refine ⟨c, hrs c hc, c1, c2, e', ?_, c4⟩
          have hsplit : e :: (List.replicate (g - 1) DecodeEntry.none ++ Y) = (e :: List.replicate (g - 1) DecodeEntry.none) ++ Y := rfl
          rw [hsplit, filled_append _ DecodeEntry.none _ _ e3, List.getElem?_append_right, ← c3]
          · congr 1
            rw [filled_length, List.length_cons, List.length_replicate]
            have : (w - (p + j * U)) = g * U + (w - (p + (j + g) * U)) := by
              rw [Nat.add_mul] at hw1 ⊢
              omega
            rw [this, Nat.mul_comm g U, Nat.mul_add_div hU]
            generalize (w - (p + (j + g) * U)) / U = x
            clear this hsplit
            omega
          · rw [filled_length, List.length_cons, List.length_replicate, Nat.le_div_iff_mul_le hU]
            have : g - 1 + 1 = g := by omega
            rw [this]
            rw [Nat.add_mul] at hw1
            omega
      have hfirst : ∀ (e : DecodeEntry) (g : Nat) (Y : List DecodeEntry), e.valid = true → 0 < g → (Y = [] ∨ HeadValid Y) → ∀ w, p + j * U ≤ w →
          w < p + (j + g) * U →
          (filled DecodeEntry.none (e :: (List.replicate (g - 1) DecodeEntry.none ++ Y)))[(w - (p + j * U)) / U]? = some e := by
        intro e g Y hev hg hY w hw1 hw2
        have hsplit : e :: (List.replicate (g - 1) DecodeEntry.none ++ Y) = (e :: List.replicate (g - 1) DecodeEntry.none) ++ Y := rfl
        have hlt : (w - (p + j * U)) / U < g := by
          rw [Nat.div_lt_iff_lt_mul hU]
          rw [Nat.add_mul] at hw2
          omega
        rw [hsplit, filled_append _ DecodeEntry.none _ _ hY, List.getElem?_append_left (by rw [filled_length]; simp; omega)]
        simp only [filled, hev, if_true, filled_none]
        rw [← List.replicate_succ, List.getElem?_replicate]
        rw [if_pos (by omega)]
      have hrepl : List.replicate (N - j) DecodeEntry.none = DecodeEntry.none :: List.replicate (N - j - 1) DecodeEntry.none := by
        rw [← List.replicate_succ]
        congr 1
        omega
      by_cases hcase : len sym ≤ 8 * k + bw
      · -- a single code
        obtain ⟨g, hg⟩ : ∃ g, g = 2 ^ (8 * k + bw - len sym) := ⟨_, rfl⟩
        have hgU : span len sym = g * U := by
          rw [hg, hUe, ← pow_add]
          unfold span
          congr 1
          omega
        have hg0 : 0 < g := by rw [hg]; exact Nat.two_pow_pos _
        have hjg : (j + g) * U = j * U + span len sym := by rw [Nat.add_mul, hgU]
        have hrest : Part len (p + (j + g) * U) cs (p + N * U) := by
          rw [hseg] at hpart
          cases hpart with
          | cons _ _ _ h4 => rw [hjg, ← Nat.add_assoc]; rw [← hveq] at *; exact h4
        have hjgN : j + g ≤ N := by
          have := hrest.le
          exact Nat.le_of_mul_le_mul_right (by omega) hU
        have hgN : g < N := by
          rw [hg, hNe]
          exact Nat.pow_lt_pow_right (by decide) (by omega)
        have htake : takeRun (8 * k) bw j cs = .ok ([], cs) := by
          have := takeRun_ok hbw h32 j [] cs (by simp) (hnext cs (j + g) (by omega) hrest)
          simpa using this
        obtain ⟨Y, D, E, r, e1, e2, e3, e4, e5, e6, e7, e8⟩ := hjoin (DecodeEntry.make sym bidx) g cs [] [] rfl hg0 (fun _ => hgN) hjgN
          (by rw [hseg] at hf; simpa using hf) hrest (fun c hc => by rw [hseg]; simp [hc]) (by rw [hseg]; exact List.sublist_cons_self _ _)
          (by rw [hseg]; simp; omega)
          (by
            rw [hseg] at hB
            simp only [List.append_nil, List.length_cons] at hB ⊢
            split at hB <;> omega) (by simp) (.inl rfl)
        refine ⟨DecodeEntry.make sym bidx :: (List.replicate (g - 1) DecodeEntry.none ++ Y), D, E, 1 + r, ?_, by simp; omega,
          .inr ⟨_, _, rfl, rfl⟩, e4, e5, by simpa using e6, by omega, fun hj => by have := e7 hj; omega, ?_⟩
        · rw [hseg]
          simp only [buildRuns, hci, htake, bind, Except.bind, if_true]
          rw [hrepl, List.cons_append, store_mid _ _ _ _ _ _ (by omega)]
          simp only [List.append_nil, List.nil_append] at e1
          simp only [e1]
        · intro F Br hF hBr w hw1 hw2
          by_cases hw : p + (j + g) * U ≤ w
          · exact e8 F Br (by simpa using hF) (by simpa using hBr) w hw hw2
          · refine ⟨(v, sym), hmem, by simp only; omega, by simp only; omega, _, hfirst _ g Y rfl hg0 e3 w hw1 (by omega), .inl rfl⟩
      · -- several codes, of greater lengths
        have hb8 : bw = 8 := by
          rcases hlen with h | h
          · exact h
          · exact absurd (h _ hmem) hcase
        have hk3 : k < 3 := by omega
        have hall : ∀ c ∈ seg, 8 * k + bw < len c.2 := by
          intro c hc
          rw [hseg] at hc hsorted
          rcases List.mem_cons.1 hc with rfl | hc
          · simp only; omega
          · have := (List.pairwise_cons.1 hsorted).1 c hc
            simp only at this
            omega
        have hdvd : ∀ c ∈ seg, span len c.2 ∣ U := by
          intro c hc
          rw [hUe]
          exact pow_dvd_pow 2 (by have := hall c hc; omega)
        have hUp : U ∣ p := (Dvd.intro_left N rfl).trans hp
        obtain ⟨run, rest, hrr, hrun, hrest⟩ := hpart.split (m := p + (j + 1) * U) (U := U) ((Nat.dvd_add_right hUp).2 (Dvd.intro_left _ rfl))
          (by omega) (by omega) hdvd
        cases run with
        | nil => have := hrun.nil_eq; omega
        | cons c1 run =>
          have hc1 : c1 = (v, sym) ∧ cs = run ++ rest := by
            rw [hseg, List.cons_append, List.cons.injEq] at hrr
            exact ⟨hrr.1.symm, hrr.2⟩
          obtain ⟨rfl, hcs⟩ := hc1
          have hrne : run ≠ [] := by
            rintro rfl
            cases hrun with
            | cons a1 a2 a3 a4 =>
              have h1 := a4.nil_eq
              have h2 := hall _ hmem
              simp only at h2
              have h3 : span len sym < U := by
                rw [hUe]
                exact Nat.pow_lt_pow_right (by decide) (by omega)
              omega
          have hrunseg : ∀ c ∈ (v, sym) :: run, c ∈ seg := fun c hc => by rw [hrr]; exact List.mem_append_left _ hc
          have htake : takeRun (8 * k) bw j cs = .ok (run, rest) := by
            rw [hcs]
            refine takeRun_ok hbw h32 j run rest (fun c hc => ?_) (hnext rest (j + 1) (by omega) hrest)
            obtain ⟨b1, b2, -, -⟩ := hrun.bounds c (by simp [hc])
            have hcs0 : 0 < span len c.2 := Nat.two_pow_pos _
            rw [← hUe, ← hNe, show c.1 = p + (c.1 - p) by omega, unit_idx hU hp (by omega)]
            rw [Nat.div_eq_iff hU]
            constructor
            · omega
            · omega
          obtain ⟨cl, hcl⟩ : ∃ cl, ((v, sym) :: run).getLast? = some cl := by
            rw [← Option.isSome_iff_exists]; simp
          have hclm : cl ∈ (v, sym) :: run := List.mem_of_getLast? hcl
          have hmax : ∀ c ∈ (v, sym) :: run, len c.2 ≤ len cl.2 := by
            intro c hc
            have hsr : ((v, sym) :: run).Pairwise fun a b => len a.2 ≤ len b.2 :=
              hsorted.sublist (by rw [hrr]; exact List.sublist_append_left _ _)
            obtain ⟨init, hinit⟩ := List.getLast?_eq_some_iff.1 hcl
            rw [hinit] at hsr hc
            rcases List.mem_append.1 hc with hc | hc
            · exact (List.pairwise_append.1 hsr).2.2 c hc cl (by simp)
            · rw [List.mem_singleton.1 hc]
          have hcllo := hall cl (hrunseg cl hclm)
          obtain ⟨-, -, hclb1, hclb2⟩ := hpart.bounds cl (hrunseg cl hclm)
          obtain ⟨-, ecl, hecl, hecll⟩ := hin cl (hrunseg cl hclm)
          have hlenr : ((v, sym) :: run).length + rest.length = seg.length := by rw [hrr]; simp; omega
          have hrlen : 2 ≤ ((v, sym) :: run).length := by
            cases run with
            | nil => exact absurd rfl hrne
            | cons a b => simp
          have hrest1 : j = 0 → 1 ≤ rest.length := by
            intro hj
            cases rest with
            | nil =>
              have := hrest.nil_eq
              have h2 : j + 1 = N := Nat.eq_of_mul_eq_mul_right hU (by omega)
              omega
            | cons a b => simp
          have hBrun : B.length + ((v, sym) :: run).length ≤ 257 := by
            split at hB
            · rename_i hj; have := hrest1 hj; omega
            · omega
          have hnxt : (len cl.2 + 2 ^ 32 - (8 * k + bw) % 2 ^ 32) % 2 ^ 32 = len cl.2 - (8 * k + bw) := by omega
          have hUrec : U = 2 ^ (32 - 8 * (k + 1)) := by rw [hUe, hb8]; congr 1
          have hprec : p + j * U + 2 ^ (32 - 8 * (k + 1)) = p + (j + 1) * U := by rw [← hUrec]; omega
          obtain ⟨D1, E1, r1, r2, r3, r4, r5⟩ := hrec hk3 ((v, sym) :: run) (p + j * U) (min bw (len cl.2 - (8 * k + bw)))
            ⟨B, T ++ (X ++ (DecodeEntry.make 0 B.length :: (List.replicate (N - j - 1) DecodeEntry.none ++ Ds)))⟩
            (by rw [hprec]; exact hrun)
            (by rw [← hUrec]; exact (Nat.dvd_add_right hUp).2 (Dvd.intro_left _ rfl))
            (by omega) (by omega) (by omega)
            (by
              by_cases h8 : 8 ≤ len cl.2 - (8 * k + bw)
              · left; omega
              · right
                intro c hc
                have := hmax c hc
                omega)
            (fun c hc => by have := hall c (hrunseg c hc); omega)
            (hsorted.sublist (by rw [hrr]; exact List.sublist_append_left _ _))
            (fun c hc => hin c (hrunseg c hc)) hBrun
            (by
              have : (T ++ (X ++ (DecodeEntry.make 0 B.length :: (List.replicate (N - j - 1) DecodeEntry.none ++ Ds)))).length =
                  (T ++ (X ++ (List.replicate (N - j) DecodeEntry.none ++ Ds))).length := by rw [hrepl]; simp
              rw [this]
              exact hsize)
          have hDhas : ∀ Ds2 : List DecodeEntry, T ++ (X ++ (DecodeEntry.make 0 B.length :: (List.replicate (N - j - 1) DecodeEntry.none ++ Ds))) ++ Ds2 =
              T ++ (X ++ (DecodeEntry.make 0 B.length :: (List.replicate (N - j - 1) DecodeEntry.none ++ (Ds ++ Ds2)))) := by
            intro Ds2; simp
          obtain ⟨Y, D, E, r, e1, e2, e3, e4, e5, e6, e7, e8⟩ := hjoin (DecodeEntry.make 0 B.length) 1 rest D1 E1 rfl (by omega)
            (fun _ => by omega) (by omega) (by rw [hseg] at hf; simp only [List.length_cons] at hf; rw [hcs] at hf; simp only [List.length_append] at hf; omega)
            hrest (fun c hc => by rw [hrr]; exact List.mem_append_right _ hc) (by rw [hrr]; exact List.sublist_append_right _ _)
            (by omega)
            (by
              simp only [List.length_append]
              split at hB <;> omega) r3 (.inr r2)
          have hDD : filled DecodeEntry.none (D1 ++ D) = filled DecodeEntry.none D1 ++ filled DecodeEntry.none D := filled_append _ _ _ _ e4
          refine ⟨DecodeEntry.make 0 B.length :: (List.replicate (1 - 1) DecodeEntry.none ++ Y), D1 ++ D, E1 ++ E, 1 + r, ?_,
            by simp; omega, .inr ⟨_, _, rfl, rfl⟩, ?_, by simp only [List.length_append]; omega,
            by simp only [List.length_append]; omega, by omega, fun hj => by have := e7 hj; omega, ?_⟩
          · rw [hseg]
            simp only [buildRuns, hci, htake, bind, Except.bind]
            rw [if_neg hrne]
            simp only [hcl, Option.getD_some, hecl, hecll, hnxt]
            rw [hrepl, List.cons_append, store_mid _ _ _ _ _ _ (by omega)]
            simp only [show 8 * k + bw = 8 * (k + 1) by omega] at r1 ⊢
            simp only [r1, hDhas]
            exact e1
          · right
            obtain ⟨e0, es, he0, hev⟩ := r2
            exact ⟨e0, es ++ D, by rw [he0]; rfl, hev⟩
          · intro F Br hF hBr w hw1 hw2
            rw [hDD] at hF
            by_cases hw : p + (j + 1) * U ≤ w
            · refine e8 F Br ?_ ?_ w hw hw2
              · have := hF.right
                rw [filled_length] at this
                simpa [Nat.add_assoc] using this
              · have := hBr.right
                simpa using this
            · obtain ⟨c, hc, c1, c2, c3⟩ := r5 F Br (by
                have h1 := hF.left
                have h2 : (T ++ (X ++ (DecodeEntry.make 0 B.length :: (List.replicate (N - j - 1) DecodeEntry.none ++ Ds)))).length =
                    T.length + N + Ds.length := by
                  simp only [List.length_append, List.length_cons, List.length_replicate]
                  omega
                rw [h2]
                exact h1) hBr.left w hw1 (by rw [hprec]; omega)
              refine ⟨c, hrunseg c hc, c1, c2, _, hfirst _ 1 Y rfl (by omega) e3 w hw1 (by omega), .inr ?_⟩
              have h255 : B.length % 2 ^ 8 = B.length := Nat.mod_eq_of_lt (by omega)
              simp only [DecodeEntry.make, h255]
              simp only at c3
              rw [show 3 - k = 4 - (k + 1) by omega]
              exact c3

theorem helper_ok {codes : List CodeEntry} {len : Nat → Nat} (fuel : Nat) : ∀ k, k < 4 → 4 ≤ fuel + k →
    LevelOk codes len (buildHelper codes fuel) k := by
  induction fuel with
  | zero => intro k h1 h2; omega
  | succ fuel ih =>
    intro k hk hfuel seg p bw st hpart hp hbw hbw8 h32 hlen hgt hsorted hin hB hsize
    obtain ⟨br, hbr, hbase, hmask⟩ := mkBranch_ok hbw h32 st.entries.length
    have hNU : 2 ^ bw * 2 ^ (32 - (8 * k + bw)) = 2 ^ (32 - 8 * k) := by rw [← pow_add]; congr 1; omega
    have hU : 0 < 2 ^ (32 - (8 * k + bw)) := Nat.two_pow_pos _
    have hN256 : 2 ^ bw ≤ 256 := by
      calc 2 ^ bw ≤ 2 ^ 8 := Nat.pow_le_pow_right (by decide) hbw8
        _ = 256 := rfl
    obtain ⟨Y, D, E, r, e1, e2, e3, e4, e5, e6, e7, e8, e9⟩ := runs_ok (codes := codes) (len := len) (rec := buildHelper codes fuel) (k := k)
      (fun h3 => ih (k + 1) (by omega) (by omega)) hbw hbw8 h32 (2 ^ (32 - (8 * k + bw))) (2 ^ bw) rfl rfl p (by rw [hNU]; exact hp)
      st.entries st.branches.length seg.length seg 0 [] [] (st.branches ++ [br]) le_rfl (by rw [hNU]; simpa using hpart) rfl hlen hgt hsorted hin
      (by simp; omega)
      (by simp; omega)
    simp only [List.nil_append, List.append_nil, Nat.sub_zero, Nat.zero_mul, Nat.add_zero, List.length_nil] at e1 e2 e9
    have hYne : Y ≠ [] := by
      rintro rfl
      have := Nat.two_pow_pos bw
      simp at e2
      omega
    obtain ⟨y, ys, hy, hyv⟩ : HeadValid Y := e3.resolve_left hYne
    refine ⟨Y ++ D, br :: E, ?_, ⟨y, ys ++ D, by rw [hy]; rfl, hyv⟩, ?_, ?_, ?_⟩
    · simp only [buildHelper, hbr, bind, Except.bind, e1]
      simp
    · simp only [List.length_append, List.length_cons]
      omega
    · have := e8 rfl
      simp only [List.length_cons]
      omega
    · intro F Br hF hBr w hw1 hw2
      rw [filled_append _ DecodeEntry.none _ _ e4] at hF
      have hF2 := hF.right
      rw [filled_length, e2] at hF2
      have hBr2 : Has Br (st.branches ++ [br]).length E := by
        have : Has Br st.branches.length ([br] ++ E) := hBr
        have := this.right
        simpa using this
      rw [← hNU] at hw2
      obtain ⟨c, hc, c1, c2, e, c3, c4⟩ := e9 F Br hF2 hBr2 w hw1 hw2
      refine ⟨c, hc, c1, c2, ?_⟩
      have hb0 : Br[st.branches.length]? = some br := hBr 0 br rfl
      have hidx : (w &&& br.mask) >>> br.shift = (w - p) / 2 ^ (32 - (8 * k + bw)) := by
        rw [hmask]
        conv_lhs => rw [show w = p + (w - p) by omega]
        exact unit_idx hU (by rw [hNU]; exact hp) (by omega)
      have hilt : (w - p) / 2 ^ (32 - (8 * k + bw)) < 2 ^ bw := by
        rw [Nat.div_lt_iff_lt_mul hU]
        omega
      have hd : F[(br.base + (w &&& br.mask) >>> br.shift) % 2 ^ 32]? = some e := by
        rw [hidx, hbase, Nat.mod_eq_of_lt (by omega)]
        exact hF.left _ _ c3
      rcases c4 with rfl | c4
      · have h255 : st.branches.length % 2 ^ 8 = st.branches.length := Nat.mod_eq_of_lt (by have := e8 rfl; omega)
        have := look_same hb0 hd (Nat.mod_eq_of_lt (hin c hc).1) h255 (4 - k - 1)
        rwa [show 4 - k - 1 + 1 = 4 - k by omega] at this
      · have h3 : 3 - k ≠ 0 := by
          intro h0
          rw [h0] at c4
          exact c4
        rw [show 4 - k = 3 - k + 1 by omega]
        exact ⟨br, e, hb0, hd, by rw [if_neg h3]; exact c4⟩

end Verif.Cpp
