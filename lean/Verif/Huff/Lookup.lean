import Verif.Huff.TreeLemmas
/-
The decode table that huffman.py can build but does not use (the call in line 261 is commented out).
-/
namespace Verif.Huff.Lookup
open Verif Verif.Huff

/-- `l[i]` for an index that is not negative. -/
def item {α : Type} (l : List α) (i : Nat) : Py α :=
  match l[i]? with
  | some x => .ok x
  | none => .error .index

/-- huffman.py 176-177 and 203: the place of a code in a table, for the codes shifted to 32 bits. -/
def slot (code msb bw : Nat) : Nat := ((code <<< msb) &&& 0xFFFFFFFF) >>> (32 - bw)

/-- huffman.py 179-183, MakeBranchEntry. -/
def branchEntry (base branch msb bw : Nat) : Nat × Nat × Nat × Nat :=
  (base, branch, ((0xFFFFFFFF <<< (32 - bw)) &&& 0xFFFFFFFF) >>> msb, 32 - min (msb + bw) 32)

/-- `self.branches` and `self.decode_table`; an entry is the symbol, the branch and whether it is valid. -/
structure Tables where
  branches : List (Nat × Nat × Nat × Nat)
  table : List (Nat × Nat × Nat)
  deriving DecidableEq, Repr

/-- huffman.py 197-200 with Equivalent (163-177): the end of a run of codes with the same place. -/
def scanRun (s : List (Nat × Nat)) (start stop msb bw : Nat) : Nat → Nat → Py Nat
  | 0, _ => .error .outOfFuel
  | fuel + 1, r => do
    let a ← item s start
    let b ← item s r
    if slot a.1 msb bw = slot b.1 msb bw then
      if r + 1 = stop then .ok (r + 1) else scanRun s start stop msb bw fuel (r + 1)
    else .ok r

/-- `decode_table[i] = x`. -/
def putItem (t : Tables) (i : Nat) (x : Nat × Nat × Nat) : Py Tables :=
  if i < t.table.length then .ok { t with table := t.table.set i x } else .error .index

/-- huffman.py 187-191: a new table; `0x1 << bw` raises if `bw` is negative. -/
def openTable (t : Tables) (msb : Nat) (bw : Int) : Py (Tables × Nat) :=
  if bw < 0 then .error .value
  else .ok ({ branches := t.branches ++ [branchEntry t.table.length t.branches.length msb bw.toNat],
              table := t.table ++ List.replicate (2 ^ bw.toNat) (0, 0, 0) }, bw.toNat)

/-- huffman.py 185-217, BuildDecodeTableHelper: the loop, from `run_start` on; `codes` is the canonical code table (the code and its
length; the bytes play no part) and `s` is `sorted_by_code`.  The fuel stands for the depth of the recursion and the turns of the loop. -/
def buildLoop (codes s : List (Nat × Nat)) : Nat → (branch base start stop msb bw : Nat) → Tables → Py Tables
  | 0, _, _, _, _, _, _, _ => .error .outOfFuel
  | fuel + 1, branch, base, start, stop, msb, bw, t =>
    if start < stop then do
      let r ← scanRun s start stop msb bw (stop + 1) start
      let c ← item s start
      if r - start = 1 then do
        let t ← putItem t (base + slot c.1 msb bw) (c.2, branch, 1)
        buildLoop codes s fuel branch base r stop msb bw t
      else do
        let l ← item s (r - 1)
        let e ← item codes l.2
        let t ← putItem t (base + slot c.1 msb bw) (0, 0, 0)
        let (t', w) ← openTable t (msb + bw) (min (bw : Int) ((e.2 : Int) - (msb + bw)))
        let t ← buildLoop codes s fuel t.branches.length t.table.length start r (msb + bw) w t'
        buildLoop codes s fuel branch base r stop msb bw t
    else .ok t

/-- huffman.py 223-229: the codes shifted to 32 bits, with their symbols, in ascending order; a code of more than 32 bits is a
negative shift. -/
def sortCodes (codes : List (Nat × Nat)) : Py (List (Nat × Nat)) :=
  if ∀ c ∈ codes, c.2 ≤ 32 then
    .ok (sortBy (fun a b => decide (a.1 < b.1) || (decide (a.1 = b.1) && decide (a.2 ≤ b.2)))
      ((codes.zipIdx).map fun c => (c.1.1 <<< (32 - c.1.2), c.2)))
  else .error .value

/-- huffman.py 234-236: the entries that are not valid become what is before them. -/
def fill (prev : Nat × Nat × Nat) : List (Nat × Nat × Nat) → List (Nat × Nat × Nat)
  | [] => []
  | e :: es => (if e.2.2 = 0 then prev else e) :: fill (if e.2.2 = 0 then prev else e) es

/-- huffman.py 219-236, BuildDecodeTable.  Before the first entry is the last one, `decode_table[-1]`. -/
def buildDecodeTable (fuel : Nat) (codes : List (Nat × Nat)) : Py Tables := do
  let s ← sortCodes codes
  let (t, w) ← openTable ⟨[], []⟩ 0 8
  let t ← buildLoop codes s fuel 0 0 0 s.length 0 w t
  pure { t with table := fill (t.table.getLast?.getD (0, 0, 0)) t.table }

/-! ### Lemmas -/

theorem slot_lt (code msb : Nat) {bw : Nat} (h : bw ≤ 32) : slot code msb bw < 2 ^ bw := by
  unfold slot
  rw [Nat.shiftRight_eq_div_pow, show (0xFFFFFFFF : Nat) = 2 ^ 32 - 1 by norm_num, Nat.and_two_pow_sub_one_eq_mod,
    Nat.div_lt_iff_lt_mul (Nat.two_pow_pos _), ← pow_add, show bw + (32 - bw) = 32 by omega]
  exact Nat.mod_lt _ (Nat.two_pow_pos _)

theorem slot_root {code : Nat} (h : code < 2 ^ 32) : slot code 0 8 = code / 2 ^ 24 := by
  unfold slot
  rw [Nat.shiftLeft_zero, Nat.shiftRight_eq_div_pow, show (0xFFFFFFFF : Nat) = 2 ^ 32 - 1 by norm_num,
    Nat.and_two_pow_sub_one_eq_mod, Nat.mod_eq_of_lt h]

theorem item_ok {α : Type} {l : List α} {i : Nat} {x : α} (h : item l i = .ok x) : l[i]? = some x := by
  unfold item at h
  split at h
  · cases h; assumption
  · cases h

theorem putItem_ok {t t' : Tables} {i : Nat} {x : Nat × Nat × Nat} (h : putItem t i x = .ok t') :
    i < t.table.length ∧ t' = { t with table := t.table.set i x } := by
  unfold putItem at h
  split at h
  · cases h; exact ⟨by assumption, rfl⟩
  · cases h

/-- A run: all codes of it have the place of the first, and the next one has another. -/
theorem scanRun_spec (s : List (Nat × Nat)) (start stop msb bw : Nat) : ∀ (fuel r r' : Nat), start ≤ r → r < stop →
    scanRun s start stop msb bw fuel r = .ok r' →
    (∀ j, start ≤ j → j < r → ∀ a b, s[start]? = some a → s[j]? = some b → slot a.1 msb bw = slot b.1 msb bw) →
    r ≤ r' ∧ r' ≤ stop ∧ (r = start → start < r') ∧
      (∀ j, start ≤ j → j < r' → ∀ a b, s[start]? = some a → s[j]? = some b → slot a.1 msb bw = slot b.1 msb bw) ∧
      (r' < stop → ∃ a b, s[start]? = some a ∧ s[r']? = some b ∧ slot a.1 msb bw ≠ slot b.1 msb bw) := by
  intro fuel
  induction fuel with
  | zero => intro r r' _ _ h _; cases h
  | succ fuel ih =>
    intro r r' h1 h2 h h3
    simp only [scanRun, bind, Except.bind] at h
    split at h
    · cases h
    rename_i a ha
    split at h
    · cases h
    rename_i b hb
    have ha := item_ok ha
    have hb := item_ok hb
    split at h
    · rename_i heq
      have h3' : ∀ j, start ≤ j → j < r + 1 → ∀ a b, s[start]? = some a → s[j]? = some b → slot a.1 msb bw = slot b.1 msb bw := by
        intro j j1 j2 a' b' e1 e2
        rcases Nat.lt_succ_iff_lt_or_eq.1 j2 with j2 | rfl
        · exact h3 j j1 j2 a' b' e1 e2
        · rw [ha] at e1
          rw [hb] at e2
          cases e1
          cases e2
          exact heq
      split at h
      · cases h
        exact ⟨by omega, by omega, by omega, h3', by omega⟩
      · obtain ⟨q1, q2, _, q4, q5⟩ := ih (r + 1) r' (by omega) (by omega) h h3'
        exact ⟨by omega, q2, by omega, q4, q5⟩
    · rename_i hne
      cases h
      refine ⟨le_refl _, by omega, ?_, h3, fun _ => ⟨a, b, ha, hb, hne⟩⟩
      rintro rfl
      rw [ha] at hb
      cases hb
      exact absurd rfl hne

/-- The entries of the own table of a branch are its own, and all others before it stay. -/
theorem buildLoop_keeps (codes s : List (Nat × Nat)) : ∀ (fuel branch base start stop msb bw : Nat) (t t' : Tables), bw ≤ 32 →
    base + 2 ^ bw ≤ t.table.length → buildLoop codes s fuel branch base start stop msb bw t = .ok t' →
    t.table.length ≤ t'.table.length ∧ ∀ i, i < t.table.length → (i < base ∨ base + 2 ^ bw ≤ i → t'.table[i]? = t.table[i]?) := by
  intro fuel
  induction fuel with
  | zero => intro _ _ _ _ _ _ _ _ _ _ h; cases h
  | succ fuel ih =>
    intro branch base start stop msb bw t t' hbw hlen h
    simp only [buildLoop, bind, Except.bind] at h
    split at h
    · split at h
      · cases h
      rename_i r hr
      split at h
      · cases h
      rename_i c hc
      have hsl := slot_lt c.1 msb hbw
      split at h
      · split at h
        · cases h
        rename_i t1 ht1
        obtain ⟨p1, rfl⟩ := putItem_ok ht1
        obtain ⟨q1, q2⟩ := ih _ _ _ _ _ _ _ _ hbw (by simpa using hlen) h
        simp only [List.length_set] at q1 q2
        refine ⟨q1, fun i hi hout => ?_⟩
        rw [q2 i hi hout, List.getElem?_set_ne (by omega)]
      · split at h
        · cases h
        split at h
        · cases h
        rename_i e he
        split at h
        · cases h
        rename_i t1 ht1
        obtain ⟨p1, rfl⟩ := putItem_ok ht1
        split at h
        · cases h
        rename_i q hq
        obtain ⟨t2, w⟩ := q
        unfold openTable at hq
        split at hq
        · cases hq
        rename_i hneg
        simp only [Except.ok.injEq, Prod.mk.injEq] at hq
        obtain ⟨rfl, rfl⟩ := hq
        simp only at h
        split at h
        · cases h
        rename_i t3 ht3
        have hw : (min (bw : Int) ((e.2 : Int) - (msb + bw))).toNat ≤ 32 := by omega
        generalize (min (bw : Int) ((e.2 : Int) - (msb + bw))).toNat = w at hw ht3
        have hpos := Nat.two_pow_pos w
        obtain ⟨q1, q2⟩ := ih _ _ _ _ _ _ _ _ hw (by simp) ht3
        simp only [List.length_append, List.length_set, List.length_replicate] at q1 q2
        obtain ⟨z1, z2⟩ := ih _ _ _ _ _ _ _ _ hbw (by omega) h
        refine ⟨by omega, fun i hi hout => ?_⟩
        rw [z2 i (by omega) hout, q2 i (by omega) (.inl hi), List.getElem?_append_left (by simpa using hi),
          List.getElem?_set_ne (by omega)]
    · cases h
      exact ⟨le_refl _, fun _ _ _ => rfl⟩

/-- What the first table has: a code that is alone at its place, or nothing. -/
theorem buildLoop_own (codes s : List (Nat × Nat)) : ∀ (fuel branch base start stop msb bw : Nat) (t t' : Tables), bw ≤ 32 →
    base + 2 ^ bw ≤ t.table.length → stop ≤ s.length →
    (∀ i j a b, start ≤ i → i ≤ j → j < stop → s[i]? = some a → s[j]? = some b → slot a.1 msb bw ≤ slot b.1 msb bw) →
    buildLoop codes s fuel branch base start stop msb bw t = .ok t' →
    ∀ k, k < 2 ^ bw →
      (∀ r a, start ≤ r → r < stop → s[r]? = some a → slot a.1 msb bw = k →
        (∀ j b, start ≤ j → j < stop → s[j]? = some b → slot b.1 msb bw = k → j = r) → t'.table[base + k]? = some (a.2, branch, 1)) ∧
      ((∀ r a, start ≤ r → r < stop → s[r]? = some a → slot a.1 msb bw ≠ k) → t'.table[base + k]? = t.table[base + k]?) ∧
      (t'.table[base + k]? = t.table[base + k]? ∨ t'.table[base + k]? = some (0, 0, 0) ∨
        ∃ sym, t'.table[base + k]? = some (sym, branch, 1)) := by
  intro fuel
  induction fuel with
  | zero => intro _ _ _ _ _ _ _ _ _ _ _ _ h; cases h
  | succ fuel ih =>
    intro branch base start stop msb bw t t' hbw hlen hstop hmono h k hk
    simp only [buildLoop, bind, Except.bind] at h
    split at h
    · rename_i hlt
      split at h
      · cases h
      rename_i r hr
      obtain ⟨_, r1, r2, r3, r4⟩ := scanRun_spec s start stop msb bw _ _ _ (le_refl _) hlt hr (fun j j1 j2 => by omega)
      have r2 := r2 rfl
      split at h
      · cases h
      rename_i c hc
      have hc := item_ok hc
      have hsl := slot_lt c.1 msb hbw
      have hmono' : ∀ i j a b, r ≤ i → i ≤ j → j < stop → s[i]? = some a → s[j]? = some b → slot a.1 msb bw ≤ slot b.1 msb bw :=
        fun i j a b hi => hmono i j a b (by omega)
      -- behind the run the place of the run does not occur
      have hafter : ∀ j b, r ≤ j → j < stop → s[j]? = some b → slot c.1 msb bw < slot b.1 msb bw := by
        intro j b hj hjs hb
        obtain ⟨a', b', e1, e2, hne⟩ := r4 (by omega)
        rw [hc] at e1
        cases e1
        have m1 := hmono start r c b' (le_refl _) (by omega) (by omega) hc e2
        have m2 := hmono r j b' b (by omega) hj hjs e2 hb
        omega
      split at h
      · rename_i hone
        split at h
        · cases h
        rename_i t1 ht1
        obtain ⟨p1, rfl⟩ := putItem_ok ht1
        obtain ⟨z1, z2, z3⟩ := ih _ _ _ _ _ _ _ _ hbw (by simpa using hlen) hstop hmono' h k hk
        by_cases hck : slot c.1 msb bw = k
        · have hset : t'.table[base + k]? = some (c.2, branch, 1) := by
            rw [z2 fun j b hj hjs hb hbk => by
              have := hafter j b hj hjs hb
              omega]
            simp only
            rw [hck, List.getElem?_set_self (by omega)]
          refine ⟨fun j a hj hjs ha hak hall => ?_, fun hno => absurd hck (hno start c (le_refl _) hlt hc), .inr (.inr ⟨_, hset⟩)⟩
          have : start = j := hall start c (le_refl _) hlt hc hck
          subst this
          rw [hc] at ha
          cases ha
          exact hset
        · have hsame : ({ t with table := t.table.set (base + slot c.1 msb bw) (c.2, branch, 1) } : Tables).table[base + k]? =
              t.table[base + k]? := by
            simp only
            rw [List.getElem?_set_ne (by omega)]
          rw [hsame] at z2 z3
          refine ⟨fun j a hj hjs ha hak hall => ?_, fun hno => z2 fun j a hj => hno j a (by omega), z3⟩
          have hjr : r ≤ j := by
            by_contra hjr
            have hj' : j = start := by omega
            subst hj'
            rw [hc] at ha
            cases ha
            exact hck hak
          exact z1 j a hjr hjs ha hak fun j' b hj' => hall j' b (by omega)
      · rename_i hmany
        split at h
        · cases h
        split at h
        · cases h
        rename_i e he
        split at h
        · cases h
        rename_i t1 ht1
        obtain ⟨p1, rfl⟩ := putItem_ok ht1
        split at h
        · cases h
        rename_i q hq
        obtain ⟨t2, w⟩ := q
        unfold openTable at hq
        split at hq
        · cases hq
        rename_i hneg
        simp only [Except.ok.injEq, Prod.mk.injEq] at hq
        obtain ⟨rfl, rfl⟩ := hq
        simp only at h
        split at h
        · cases h
        rename_i t3 ht3
        have hw : (min (bw : Int) ((e.2 : Int) - (msb + bw))).toNat ≤ 32 := by omega
        generalize (min (bw : Int) ((e.2 : Int) - (msb + bw))).toNat = w at hw ht3
        have hpos := Nat.two_pow_pos w
        obtain ⟨q1, q2⟩ := buildLoop_keeps codes s _ _ _ _ _ _ _ _ _ hw (by simp) ht3
        simp only [List.length_append, List.length_set, List.length_replicate] at q1 q2
        obtain ⟨z1, z2, z3⟩ := ih _ _ _ _ _ _ _ _ hbw (by omega) hstop hmono' h k hk
        have h3 : t3.table[base + k]? = (t.table.set (base + slot c.1 msb bw) (0, 0, 0))[base + k]? := by
          rw [q2 (base + k) (by omega) (.inl (by omega)), List.getElem?_append_left (by simp; omega)]
        rw [h3] at z2 z3
        by_cases hck : slot c.1 msb bw = k
        · rw [hck, List.getElem?_set_self (by omega)] at z2 z3
          refine ⟨fun j a hj hjs ha hak hall => ?_, fun hno => absurd hck (hno start c (le_refl _) hlt hc), ?_⟩
          · -- two codes of the run have the place
            exfalso
            have e1 := hall start c (le_refl _) hlt hc hck
            have hr2 : start + 1 < r := by omega
            have hlt2 : start + 1 < s.length := by omega
            have hn : s[start + 1]? = some s[start + 1] := List.getElem?_eq_getElem hlt2
            have e2 := hall (start + 1) _ (by omega) (by omega) hn (by rw [← r3 (start + 1) (by omega) hr2 c _ hc hn]; exact hck)
            omega
          · rcases z3 with z3 | z3 | z3
            · exact .inr (.inl z3)
            · exact .inr (.inl z3)
            · exact .inr (.inr z3)
        · rw [List.getElem?_set_ne (by omega)] at z2 z3
          refine ⟨fun j a hj hjs ha hak hall => ?_, fun hno => z2 fun j a hj => hno j a (by omega), z3⟩
          have hjr : r ≤ j := by
            by_contra hjr
            exact hck (by rw [r3 j hj (by omega) c a hc ha]; exact hak)
          exact z1 j a hjr hjs ha hak fun j' b hj' => hall j' b (by omega)
    · rename_i hge
      cases h
      exact ⟨fun r a h1 h2 => by omega, fun _ => rfl, .inl rfl⟩

theorem item_eq {α : Type} {l : List α} {i : Nat} {x : α} (h : l[i]? = some x) : item l i = .ok x := by
  unfold item
  rw [h]

theorem slot_eq (v : Nat) {msb bw : Nat} (h : msb + bw ≤ 32) : slot v msb bw = v / 2 ^ (32 - msb - bw) % 2 ^ bw := by
  unfold slot
  rw [Nat.shiftRight_eq_div_pow, Nat.shiftLeft_eq, show (0xFFFFFFFF : Nat) = 2 ^ 32 - 1 by norm_num, Nat.and_two_pow_sub_one_eq_mod,
    show 2 ^ 32 = 2 ^ (32 - bw) * 2 ^ bw by rw [← pow_add, show 32 - bw + bw = 32 by omega], Nat.mod_mul_right_div_self,
    show 2 ^ (32 - bw) = 2 ^ (32 - msb - bw) * 2 ^ msb by rw [← pow_add, show 32 - msb - bw + msb = 32 - bw by omega],
    Nat.mul_div_mul_right _ _ (Nat.two_pow_pos _)]

/-- Codes with the same first `msb` bits and the same place have the same first `msb + bw` bits. -/
theorem same_more {v w msb bw : Nat} (h : msb + bw ≤ 32) (h1 : v / 2 ^ (32 - msb) = w / 2 ^ (32 - msb))
    (h2 : slot v msb bw = slot w msb bw) : v / 2 ^ (32 - (msb + bw)) = w / 2 ^ (32 - (msb + bw)) := by
  rw [slot_eq v h, slot_eq w h] at h2
  rw [show 2 ^ (32 - msb) = 2 ^ (32 - msb - bw) * 2 ^ bw by rw [← pow_add, show 32 - msb - bw + bw = 32 - msb by omega],
    ← Nat.div_div_eq_div_mul, ← Nat.div_div_eq_div_mul] at h1
  rw [show 32 - (msb + bw) = 32 - msb - bw by omega, ← Nat.div_add_mod (v / 2 ^ (32 - msb - bw)) (2 ^ bw), h1, h2, Nat.div_add_mod]

theorem scanRun_total (s : List (Nat × Nat)) (start stop msb bw : Nat) (hs : start < s.length) (hstop : stop ≤ s.length) :
    ∀ fuel r, r < stop → stop - r < fuel → ∃ r', scanRun s start stop msb bw fuel r = .ok r' := by
  intro fuel
  induction fuel with
  | zero => intro r _ h; omega
  | succ fuel ih =>
    intro r h1 h2
    simp only [scanRun, bind, Except.bind, item_eq (List.getElem?_eq_getElem hs),
      item_eq (List.getElem?_eq_getElem (show r < s.length by omega))]
    split
    · split
      · exact ⟨_, rfl⟩
      · exact ih (r + 1) (by omega) (by omega)
    · exact ⟨_, rfl⟩

theorem buildLoop_total (codes s : List (Nat × Nat))
    (hs : ∀ (r : Nat) (a : Nat × Nat), s[r]? = some a → ∃ c, codes[a.2]? = some c ∧ c.2 ≤ 32 ∧ a.1 = c.1 * 2 ^ (32 - c.2))
    (hfree : ∀ (i j : Nat) (a b c : Nat × Nat), s[i]? = some a → s[j]? = some b → codes[a.2]? = some c →
      b.1 / 2 ^ (32 - c.2) = c.1 → i = j) :
    ∀ (fuel branch base start stop msb bw : Nat) (t : Tables), stop ≤ s.length → base + 2 ^ bw ≤ t.table.length → 1 ≤ bw →
    msb + bw ≤ 32 →
    (∀ (i j : Nat) (a b : Nat × Nat), start ≤ i → i < stop → start ≤ j → j < stop → s[i]? = some a → s[j]? = some b →
      a.1 / 2 ^ (32 - msb) = b.1 / 2 ^ (32 - msb)) →
    (stop - start) + (32 - msb) * (s.length + 1) < fuel →
    ∃ t', buildLoop codes s fuel branch base start stop msb bw t = .ok t' := by
  intro fuel
  induction fuel with
  | zero => intro _ _ _ _ _ _ _ _ _ _ _ _ h; omega
  | succ fuel ih =>
    intro branch base start stop msb bw t hstop hlen hbw hmsb hsame hfuel
    rw [buildLoop]
    split
    · rename_i hlt
      obtain ⟨r, hr⟩ := scanRun_total s start stop msb bw (by omega) hstop (stop + 1) start hlt (by omega)
      obtain ⟨-, r1, r2, r3, -⟩ := scanRun_spec s start stop msb bw _ _ _ (le_refl _) hlt hr (fun j j1 j2 => by omega)
      have r2 := r2 rfl
      have hc : s[start]? = some s[start] := List.getElem?_eq_getElem (by omega)
      generalize s[start] = c at hc
      have hsl := slot_lt c.1 msb (show bw ≤ 32 by omega)
      simp only [bind, Except.bind, hr, item_eq hc]
      have hput : ∀ x, putItem t (base + slot c.1 msb bw) x = .ok { t with table := t.table.set (base + slot c.1 msb bw) x } := by
        intro x
        unfold putItem
        rw [if_pos (by omega)]
      simp only [hput]
      split
      · exact ih _ _ _ _ _ _ _ hstop (by simpa using hlen) hbw hmsb (fun i j a b i1 i2 j1 j2 => hsame i j a b (by omega) i2 (by omega) j2)
          (by omega)
      · rename_i hmany
        have hl : s[r - 1]? = some s[r - 1] := List.getElem?_eq_getElem (by omega)
        generalize s[r - 1] = l at hl
        obtain ⟨e, he, he32, hev⟩ := hs _ _ hl
        -- the codes of the run have the same first bits, so they are longer
        have hrun : ∀ (i j : Nat) (a b : Nat × Nat), start ≤ i → i < r → start ≤ j → j < r → s[i]? = some a → s[j]? = some b →
            a.1 / 2 ^ (32 - (msb + bw)) = b.1 / 2 ^ (32 - (msb + bw)) := by
          intro i j a b i1 i2 j1 j2 ha hb
          refine same_more hmsb (hsame i j a b i1 (by omega) j1 (by omega) ha hb) ?_
          rw [← r3 i i1 i2 c a hc ha, r3 j j1 j2 c b hc hb]
        have hlong : msb + bw < e.2 := by
          by_contra hno
          have h1 := hrun start (r - 1) c l (le_refl _) (by omega) (by omega) (by omega) hc hl
          have hpw : 2 ^ (32 - e.2) = 2 ^ (32 - (msb + bw)) * 2 ^ (msb + bw - e.2) := by
            rw [← pow_add, show 32 - (msb + bw) + (msb + bw - e.2) = 32 - e.2 by omega]
          have h2 : c.1 / 2 ^ (32 - e.2) = e.1 := by
            rw [hpw, ← Nat.div_div_eq_div_mul, h1, Nat.div_div_eq_div_mul, ← hpw, hev]
            exact Nat.mul_div_cancel _ (Nat.two_pow_pos _)
          have := hfree (r - 1) start l c e hl hc he h2
          omega
        have hw : (min (bw : Int) ((e.2 : Int) - (msb + bw))).toNat = min bw (e.2 - (msb + bw)) := by omega
        simp only [item_eq hl, item_eq he, openTable, show ¬ min (bw : Int) ((e.2 : Int) - (msb + bw)) < 0 by omega, if_false, hw]
        generalize hn : min bw (e.2 - (msb + bw)) = w
        obtain ⟨t3, ht3⟩ := ih t.branches.length (t.table.set (base + slot c.1 msb bw) (0, 0, 0)).length start r (msb + bw) w
          { branches := t.branches ++ [branchEntry (t.table.set (base + slot c.1 msb bw) (0, 0, 0)).length t.branches.length (msb + bw) w],
            table := t.table.set (base + slot c.1 msb bw) (0, 0, 0) ++ List.replicate (2 ^ w) (0, 0, 0) }
          (by omega) (by simp) (by omega) (by omega) hrun (by
            have : (32 - (msb + bw)) * (s.length + 1) + (s.length + 1) ≤ (32 - msb) * (s.length + 1) := by
              rw [← Nat.succ_mul]
              exact Nat.mul_le_mul_right _ (by omega)
            omega)
        simp only [ht3]
        obtain ⟨q1, _⟩ := buildLoop_keeps codes s _ _ _ _ _ _ _ _ _ (by omega) (by simp) ht3
        simp only [List.length_append, List.length_set, List.length_replicate] at q1
        have hpos := Nat.two_pow_pos w
        have hl3 : base + 2 ^ bw ≤ t3.table.length := by omega
        have hf3 : stop - r + (32 - msb) * (s.length + 1) < fuel := by omega
        exact ih _ _ _ _ _ _ _ hstop hl3 hbw hmsb (fun i j a b i1 i2 j1 j2 => hsame i j a b (by omega) i2 (by omega) j2) hf3
    · exact ⟨_, rfl⟩

theorem fill_valid (es : List (Nat × Nat × Nat)) : ∀ (prev : Nat × Nat × Nat) (i : Nat) (e : Nat × Nat × Nat), es[i]? = some e → e.2.2 ≠ 0 →
    (fill prev es)[i]? = some e := by
  induction es with
  | nil => intro _ _ _ h; simp at h
  | cons x es ih =>
    intro prev i e h he
    cases i with
    | zero =>
      simp only [List.getElem?_cons_zero, Option.some.injEq] at h
      subst h
      simp [fill, he]
    | succ i =>
      simp only [List.getElem?_cons_succ] at h
      simp only [fill, List.getElem?_cons_succ]
      exact ih _ i e h he

theorem fill_copied (es : List (Nat × Nat × Nat)) : ∀ (prev : Nat × Nat × Nat) (i : Nat) (e : Nat × Nat × Nat), es[i + 1]? = some e →
    e.2.2 = 0 → (fill prev es)[i + 1]? = (fill prev es)[i]? := by
  induction es with
  | nil => intro _ _ _ h; simp at h
  | cons x es ih =>
    intro prev i e h he
    simp only [List.getElem?_cons_succ] at h
    cases i with
    | zero =>
      cases es with
      | nil => simp at h
      | cons y es =>
        simp only [List.getElem?_cons_zero, Option.some.injEq] at h
        subst h
        simp [fill, he]
    | succ i =>
      simp only [fill, List.getElem?_cons_succ]
      exact ih _ i e h he

end Verif.Huff.Lookup
