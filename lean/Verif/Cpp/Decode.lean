import Verif.Cpp.Canon
/-
The tables for decoding: what the lookups find.
-/
namespace Verif.Cpp
open Verif Huff
open Verif.Bits.Spec (bitsOf natBits byteBits pack padZeros toNat)

/-! ### Codes side by side -/

/-- The words that begin with a code of this symbol. -/
abbrev span (len : Nat → Nat) (sym : Nat) : Nat := 2 ^ (32 - len sym)

/-- The codes, each at the upper end of a word, follow one another without gaps from `lo` to `hi`. -/
inductive Part (len : Nat → Nat) : Nat → List (Nat × Nat) → Nat → Prop
  | nil (lo : Nat) : Part len lo [] lo
  | cons {v sym hi : Nat} {rest : List (Nat × Nat)} : 0 < len sym → len sym ≤ 32 → span len sym ∣ v →
      Part len (v + span len sym) rest hi → Part len v ((v, sym) :: rest) hi

variable {len : Nat → Nat}

theorem Part.le {lo hi : Nat} {seg : List (Nat × Nat)} (h : Part len lo seg hi) : lo ≤ hi := by
  induction h with
  | nil => exact le_rfl
  | cons _ _ _ _ ih => omega

theorem Part.bounds {lo hi : Nat} {seg : List (Nat × Nat)} (h : Part len lo seg hi) :
    ∀ c ∈ seg, lo ≤ c.1 ∧ c.1 + span len c.2 ≤ hi ∧ 0 < len c.2 ∧ len c.2 ≤ 32 := by
  induction h with
  | nil => simp
  | @cons v sym hi rest h1 h2 h3 h4 ih =>
    intro c hc
    rcases List.mem_cons.1 hc with rfl | hc
    · exact ⟨le_rfl, h4.le, h1, h2⟩
    · obtain ⟨a, b, c1, d⟩ := ih c hc
      exact ⟨by omega, b, c1, d⟩

theorem Part.split {lo hi m U : Nat} {seg : List (Nat × Nat)} (h : Part len lo seg hi) (hm : U ∣ m) (h1 : lo ≤ m)
    (h2 : m ≤ hi) (hU : ∀ c ∈ seg, span len c.2 ∣ U) :
    ∃ run rest, seg = run ++ rest ∧ Part len lo run m ∧ Part len m rest hi := by
  induction h with
  | nil lo =>
    obtain rfl : lo = m := by omega
    exact ⟨[], [], rfl, .nil _, .nil _⟩
  | @cons v sym hi rest a1 a2 a3 a4 ih =>
    by_cases hv : v = m
    · subst hv
      exact ⟨[], (v, sym) :: rest, rfl, .nil _, .cons a1 a2 a3 a4⟩
    · have hd : span len sym ∣ m := (hU (v, sym) (by simp)).trans hm
      have hle : v + span len sym ≤ m := by
        obtain ⟨a, ha⟩ := hd
        obtain ⟨b, hb⟩ := a3
        have hp : 0 < span len sym := Nat.two_pow_pos _
        have hlt : b < a := by
          by_contra hc
          have := Nat.mul_le_mul_left (span len sym) (Nat.le_of_not_lt hc)
          omega
        have := Nat.mul_le_mul_left (span len sym) (Nat.succ_le_of_lt hlt)
        rw [Nat.mul_succ] at this
        omega
      obtain ⟨run, rest', e, p1, p2⟩ := ih hle h2 fun c hc => hU c (by simp [hc])
      exact ⟨(v, sym) :: run, rest', by rw [e]; rfl, .cons a1 a2 a3 p1, p2⟩

theorem Part.nil_eq {lo hi : Nat} (h : Part len lo [] hi) : lo = hi := by cases h; rfl

/-! ### Masks and indices -/

theorem codeIdx_ok {msb bw : Nat} (hbw : 0 < bw) (h : msb + bw ≤ 32) (v : Nat) :
    codeIdx msb bw v = .ok (v / 2 ^ (32 - (msb + bw)) % 2 ^ bw) := by
  unfold codeIdx
  simp only [bind, Except.bind, shl32_ok (show msb < 32 by omega), distance_ok (show bw ≤ 32 by omega), pure, Except.pure]
  rw [if_pos (by omega)]
  congr 1
  have e1 : (2 : Nat) ^ 32 = 2 ^ (32 - msb) * 2 ^ msb := by rw [← pow_add]; congr 1; omega
  have e2 : (2 : Nat) ^ (32 - bw) = 2 ^ msb * 2 ^ (32 - (msb + bw)) := by rw [← pow_add]; congr 1; omega
  have e3 : (2 : Nat) ^ (32 - msb) = 2 ^ (32 - (msb + bw)) * 2 ^ bw := by rw [← pow_add]; congr 1; omega
  rw [Nat.shiftRight_eq_div_pow, e1, Nat.mul_mod_mul_right, e2, Nat.mul_comm _ (2 ^ msb), Nat.mul_div_mul_left _ _ (Nat.two_pow_pos _), e3,
    Nat.mod_mul_right_div_self]

theorem mkBranch_ok {msb bw : Nat} (hbw : 0 < bw) (h : msb + bw ≤ 32) (base : Nat) :
    ∃ br, mkBranch base msb bw = .ok br ∧ br.base = base ∧
      ∀ w, (w &&& br.mask) >>> br.shift = w / 2 ^ (32 - (msb + bw)) % 2 ^ bw := by
  refine ⟨_, by
    unfold mkBranch
    simp only [bind, Except.bind, shl32_ok (show 32 - bw < 32 by omega), distance_ok (show bw ≤ 32 by omega), pure, Except.pure]
    rw [if_pos (by omega)], rfl, fun w => ?_⟩
  simp only [min_eq_left h]
  have e0 : (2 ^ 32 - 1) * 2 ^ (32 - bw) % 2 ^ 32 = (2 ^ bw - 1) * 2 ^ (32 - bw) := by
    have hb : (2 : Nat) ^ 32 = 2 ^ bw * 2 ^ (32 - bw) := by rw [← pow_add]; congr 1; omega
    conv_lhs => rw [hb, Nat.mul_mod_mul_right]
    congr 1
    have h1 : (2 : Nat) ^ bw * 2 ^ (32 - bw) - 1 = 2 ^ bw * (2 ^ (32 - bw) - 1) + (2 ^ bw - 1) := by
      have h3 := Nat.two_pow_pos bw
      have h4 := Nat.two_pow_pos (32 - bw)
      rw [Nat.mul_sub, Nat.mul_one]
      have := Nat.le_mul_of_pos_right (2 ^ bw) h4
      omega
    rw [h1, Nat.mul_add_mod, Nat.mod_eq_of_lt (by have := Nat.two_pow_pos bw; omega)]
  rw [e0]
  have e1 : ((2 ^ bw - 1) * 2 ^ (32 - bw)) >>> msb = (2 ^ bw - 1) * 2 ^ (32 - (msb + bw)) := by
    rw [Nat.shiftRight_eq_div_pow]
    have : (2 : Nat) ^ (32 - bw) = 2 ^ (32 - (msb + bw)) * 2 ^ msb := by rw [← pow_add]; congr 1; omega
    rw [this, ← Nat.mul_assoc, Nat.mul_div_cancel _ (Nat.two_pow_pos _)]
  rw [e1, Nat.shiftRight_and_distrib, Nat.shiftRight_eq_div_pow, Nat.shiftRight_eq_div_pow,
    Nat.mul_div_cancel _ (Nat.two_pow_pos _), Nat.and_two_pow_sub_one_eq_mod]

theorem takeRun_ok {msb bw : Nat} (hbw : 0 < bw) (h : msb + bw ≤ 32) (idx : Nat) (run rest : List (Nat × Nat))
    (h1 : ∀ c ∈ run, c.1 / 2 ^ (32 - (msb + bw)) % 2 ^ bw = idx)
    (h2 : ∀ c ∈ rest.head?, c.1 / 2 ^ (32 - (msb + bw)) % 2 ^ bw ≠ idx) :
    takeRun msb bw idx (run ++ rest) = .ok (run, rest) := by
  induction run with
  | nil =>
    cases rest with
    | nil => rfl
    | cons c cs =>
      simp only [List.nil_append, takeRun, codeIdx_ok hbw h, bind, Except.bind]
      rw [if_neg (h2 c (by simp))]
      rfl
  | cons c run ih =>
    simp only [List.cons_append, takeRun, codeIdx_ok hbw h, bind, Except.bind]
    rw [if_pos (h1 c (by simp)), ih fun c hc => h1 c (by simp [hc])]
    rfl

/-! ### Filling in -/

/-- The entries after filling in, `prev` being the one before. -/
def filled (prev : DecodeEntry) : List DecodeEntry → List DecodeEntry
  | [] => []
  | e :: es => (if e.valid then e else prev) :: filled (if e.valid then e else prev) es

/-- The first entry is valid. -/
def HeadValid (l : List DecodeEntry) : Prop := ∃ e es, l = e :: es ∧ e.valid = true

theorem filled_length (p : DecodeEntry) (l : List DecodeEntry) : (filled p l).length = l.length := by
  induction l generalizing p with
  | nil => rfl
  | cons e l ih => simp [filled, ih]

theorem filled_head {l : List DecodeEntry} (h : l = [] ∨ HeadValid l) (p q : DecodeEntry) : filled p l = filled q l := by
  rcases h with rfl | ⟨e, es, rfl, hv⟩
  · rfl
  · simp [filled, hv]

theorem filled_append (p q : DecodeEntry) (l m : List DecodeEntry) (h : m = [] ∨ HeadValid m) :
    filled p (l ++ m) = filled p l ++ filled q m := by
  induction l generalizing p with
  | nil => exact filled_head h p q
  | cons e l ih => simp [filled, ih]

theorem filled_none (p : DecodeEntry) (n : Nat) : filled p (List.replicate n DecodeEntry.none) = List.replicate n p := by
  induction n with
  | zero => rfl
  | succ n ih => simp [List.replicate_succ, filled, DecodeEntry.none] at ih ⊢; exact ih

theorem fill_some (p : DecodeEntry) (l : List DecodeEntry) : fill (some p) l = .ok (filled p l) := by
  induction l generalizing p with
  | nil => rfl
  | cons e l ih =>
    simp only [fill, filled]
    by_cases hv : e.valid = true
    · simp only [hv, if_true, bind, Except.bind, ih, pure, Except.pure]
    · simp only [hv, Bool.false_eq_true, if_false, bind, Except.bind, ih, pure, Except.pure]

theorem fill_none {l : List DecodeEntry} (h : HeadValid l) : fill none l = .ok (filled DecodeEntry.none l) := by
  obtain ⟨e, es, rfl, hv⟩ := h
  simp only [fill, filled, hv, if_true, bind, Except.bind, fill_some, pure, Except.pure]

/-! ### Looking up -/

/-- The list `L` stands in `F` from `off` on. -/
def Has {α : Type} (F : List α) (off : Nat) (L : List α) : Prop := ∀ i x, L[i]? = some x → F[off + i]? = some x

theorem Has.left {α : Type} {F : List α} {off : Nat} {L M : List α} (h : Has F off (L ++ M)) : Has F off L := by
  intro i x hx
  exact h i x (by rw [List.getElem?_append_left (List.getElem?_eq_some_iff.1 hx).1]; exact hx)

theorem Has.right {α : Type} {F : List α} {off : Nat} {L M : List α} (h : Has F off (L ++ M)) : Has F (off + L.length) M := by
  intro i x hx
  have := h (L.length + i) x (by rw [List.getElem?_append_right (by omega)]; simpa using hx)
  rw [Nat.add_assoc]
  exact this

/-- `n` lookups from branch `b` on end at an entry of `sym`. -/
def Look (Br : List Branch) (F : List DecodeEntry) (w : Nat) : Nat → Nat → Nat → Prop
  | 0, _, _ => False
  | n + 1, b, sym => ∃ br e, Br[b]? = some br ∧ F[(br.base + (w &&& br.mask) >>> br.shift) % 2 ^ 32]? = some e ∧
      if n = 0 then e.sym = sym else Look Br F w n e.next sym

theorem look_same {Br : List Branch} {F : List DecodeEntry} {w b sym : Nat} {br : Branch} {e : DecodeEntry}
    (h1 : Br[b]? = some br) (h2 : F[(br.base + (w &&& br.mask) >>> br.shift) % 2 ^ 32]? = some e) (h3 : e.sym = sym)
    (h4 : e.next = b) (n : Nat) : Look Br F w (n + 1) b sym := by
  induction n with
  | zero => exact ⟨br, e, h1, h2, by rw [if_pos rfl]; exact h3⟩
  | succ n ih => exact ⟨br, e, h1, h2, by rw [if_neg (by omega), h4]; exact ih⟩

theorem lookups_of {h : Coder} {w : Nat} (n : Nat) : ∀ {b sym : Nat} (d : Nat), Look h.branches h.entries w n b sym →
    ∃ d' e, lookups h w n b d = .ok d' ∧ h.entries[d']? = some e ∧ e.sym = sym := by
  induction n with
  | zero => intro b sym d hl; exact absurd hl (by intro hl; exact hl)
  | succ n ih =>
    intro b sym d ⟨br, e, h1, h2, h3⟩
    by_cases hn : n = 0
    · subst hn
      rw [if_pos rfl] at h3
      exact ⟨_, e, by simp only [lookups, h1, h2, bind, Except.bind], h2, h3⟩
    · rw [if_neg hn] at h3
      obtain ⟨d', e', g1, g2, g3⟩ := ih ((br.base + (w &&& br.mask) >>> br.shift) % 2 ^ 32) h3
      exact ⟨d', e', by simp only [lookups, h1, h2, bind, Except.bind]; exact g1, g2, g3⟩

end Verif.Cpp
