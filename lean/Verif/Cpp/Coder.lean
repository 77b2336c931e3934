import Verif.Cpp.Levels
import Verif.Cpp.Run
/-
Huffman objects after Init: codes, DecodeFromWord, Encode and Decode.
-/
namespace Verif.Cpp
open Verif Huff Huff.Spec
open Verif.Bits.Spec (Tape bitsOf natBits byteBits pack padZeros toNat)

variable {W : Type}

/-- The codes by symbol. -/
def codesFrom (A : List (Nat × List Bool)) (n : Nat) : List (List Bool) := (List.range n).map fun i => (Dict.get? A i).getD []

theorem codesFrom_mem {A : List (Nat × List Bool)} {n : Nat} (hA : (A.map (·.1)).Perm (List.range n)) (p : Nat × List Bool) (hp : p ∈ A) :
    p.1 < n ∧ (codesFrom A n)[p.1]? = some p.2 := by
  have hlt : p.1 < n := List.mem_range.1 (hA.mem_iff.1 (List.mem_map_of_mem hp))
  refine ⟨hlt, ?_⟩
  have hnd : (A.map (·.1)).Nodup := hA.nodup_iff.2 List.nodup_range
  have : Dict.get? A p.1 = some p.2 := (Dict.mem_iff_get? hnd).1 hp
  simp only [codesFrom, List.getElem?_map, List.getElem?_range hlt, Option.map_some, this, Option.getD_some]

theorem codesFrom_of {A : List (Nat × List Bool)} {n : Nat} (hA : (A.map (·.1)).Perm (List.range n)) (i : Nat) (c : List Bool)
    (hi : (codesFrom A n)[i]? = some c) : (i, c) ∈ A := by
  simp only [codesFrom, List.getElem?_map, Option.map_eq_some_iff] at hi
  obtain ⟨a, ha, rfl⟩ := hi
  obtain ⟨ha3, ha4⟩ := List.getElem?_eq_some_iff.1 ha
  simp only [List.length_range] at ha3
  simp only [List.getElem_range] at ha4
  subst ha4
  cases hg : Dict.get? A i with
  | some c => exact Dict.get?_mem hg
  | none =>
    rw [Dict.get?_none] at hg
    exact absurd (hA.mem_iff.2 (List.mem_range.2 ha3)) hg

theorem codesOf_canon {t : Tree W} {n : Nat} {L : List (Nat × Nat)} {A : List (Nat × List Bool)} {codes : List CodeEntry}
    (h : CanonOf t n L A codes) : CodesOf t n (codesFrom A n) ∧ codes = (codesFrom A n).map entryOf ∧
      ∀ c ∈ codesFrom A n, c.length ≤ 32 := by
  have hpair := assign_ne L h.fits
  rw [← h.eq] at hpair
  have hlenA : A.map (fun p => (p.2.length, p.1)) = L := by rw [h.eq, assign_len]
  have hL : ∀ i c, (i, c) ∈ A → (c.length, i) ∈ L := fun i c hm => by
    rw [← hlenA]
    exact List.mem_map.2 ⟨(i, c), hm, rfl⟩
  refine ⟨⟨by simp [codesFrom], ?_, ?_, ?_, ?_⟩, ?_, ?_⟩
  · intro i j ci cj hi hj hpre
    have hx := codesFrom_of h.syms i ci hi
    have hy := codesFrom_of h.syms j cj hj
    by_contra hne
    have : Std.Symm fun (a b : Nat × List Bool) => ¬ a.2 <+: b.2 ∧ ¬ b.2 <+: a.2 := ⟨fun a b h => h.symm⟩
    exact (hpair.forall hx hy (by intro e; exact hne (Prod.mk.inj e).1)).1 hpre
  · refine ⟨32, fun x hx => ?_⟩
    obtain ⟨p, hpA, hpre⟩ := assign_complete L h.fits (x.take 32) (by simp [hx]) (by simp)
    rw [← h.eq] at hpA
    exact ⟨p.2, List.mem_of_getElem? (codesFrom_mem h.syms p hpA).2, hpre.trans (List.take_prefix _ _)⟩
  · intro i c hi
    obtain ⟨m, hm1, hm2⟩ := (t.mem_leaves 0 _ _).1 (h.perm.mem_iff.1 (hL i c (codesFrom_of h.syms i c hi)))
    rw [Nat.zero_add] at hm1
    rw [hm1]
    exact hm2
  · intro c hc
    obtain ⟨i, hi⟩ := List.mem_iff_getElem?.1 hc
    have := h.fits.pos _ (hL i c (codesFrom_of h.syms i c hi))
    rintro rfl
    simp at this
  · refine List.ext_getElem? fun i => ?_
    by_cases hi : i < n
    · obtain ⟨c, hc⟩ : ∃ c, (codesFrom A n)[i]? = some c :=
        ⟨_, List.getElem?_eq_getElem (by simpa [codesFrom] using hi)⟩
      rw [h.entry _ (codesFrom_of h.syms i c hc), List.getElem?_map, hc]
      rfl
    · rw [List.getElem?_eq_none (by rw [h.len]; omega), List.getElem?_eq_none (by simp [codesFrom]; omega)]
  · intro c hc
    obtain ⟨i, hi⟩ := List.mem_iff_getElem?.1 hc
    exact h.fits.hi _ (hL i c (codesFrom_of h.syms i c hi))

/-! ### The tables for decoding -/

theorem assign_part {len : Nat → Nat} (L : List (Nat × Nat)) : ∀ {next prev : Nat}, Fits 32 next prev L →
    (∀ p ∈ L, len p.2 = p.1) →
    Part len (next * 2 ^ (32 - prev)) ((assign next prev L).map fun p => (wordOf p.2, p.1)) (2 ^ 32) := by
  induction L with
  | nil =>
    intro next prev h _
    have := h.sum
    simp only [List.map_nil, List.sum_nil, Nat.add_zero] at this
    rw [this]
    exact .nil _
  | cons q L ih =>
    obtain ⟨l, sym⟩ := q
    intro next prev h hlen
    have hlo := h.lo (l, sym) (by simp)
    have hhi := h.hi (l, sym) (by simp)
    have hpos := h.pos (l, sym) (by simp)
    have hl := hlen (l, sym) (by simp)
    simp only at hlo hhi hpos hl
    have hw : wordOf (natBits l (next * 2 ^ (l - prev))) = next * 2 ^ (32 - prev) := by
      simp only [wordOf, Bits.natBits_length, Bits.toNat_natBits, Nat.mod_eq_of_lt h.lt]
      rw [Nat.mul_assoc, ← pow_add]
      congr 2
      omega
    simp only [assign, List.map_cons, hw]
    refine .cons (by omega) (by omega) ?_ ?_
    · unfold span
      rw [hl]
      exact Dvd.dvd.mul_left (pow_dvd_pow 2 (by omega)) _
    · have := ih h.tail fun p hp => hlen p (by simp [hp])
      have e : (next * 2 ^ (l - prev) + 1) * 2 ^ (32 - l) = next * 2 ^ (32 - prev) + span len sym := by
        unfold span
        rw [hl, Nat.add_mul, Nat.mul_assoc, ← pow_add, Nat.one_mul]
        congr 3
        omega
      rw [e] at this
      exact this

theorem Part.sorted {len : Nat → Nat} {lo hi : Nat} {seg : List (Nat × Nat)} (h : Part len lo seg hi) :
    seg.Pairwise fun a b => pairLe a b = true := by
  induction h with
  | nil => exact .nil
  | @cons v sym hi rest h1 h2 h3 h4 ih =>
    refine List.pairwise_cons.2 ⟨fun c hc => ?_, ih⟩
    have := (h4.bounds c hc).1
    have h0 : 0 < span len sym := Nat.two_pow_pos _
    simp only [pairLe, decide_eq_true_eq]
    left
    omega

theorem byCode_eq {t : Tree W} {n : Nat} {L : List (Nat × Nat)} {A : List (Nat × List Bool)} {codes : List CodeEntry}
    (h : CanonOf t n L A codes) {len : Nat → Nat} (hp : Part len 0 (A.map fun p => (wordOf p.2, p.1)) (2 ^ 32)) :
    sortBy pairLe (codes.zipIdx.map fun p => (p.1.val, p.2)) = A.map fun p => (wordOf p.2, p.1) := by
  have hval : ∀ i, i < n → ∃ e, codes[i]? = some e := fun i hi => ⟨_, List.getElem?_eq_getElem (by rw [h.len]; exact hi)⟩
  have e1 : (codes.zipIdx.map fun p => (p.1.val, p.2)) = (List.range n).map fun i => (((codes[i]?).map (·.val)).getD 0, i) := by
    refine List.ext_getElem? fun i => ?_
    by_cases hi : i < n
    · obtain ⟨e, he⟩ := hval i hi
      simp [List.getElem?_zipIdx, he, List.getElem?_range hi]
    · rw [List.getElem?_eq_none (by simp [h.len]; omega), List.getElem?_eq_none (by simp; omega)]
  have e2 : (A.map fun p => (wordOf p.2, p.1)) = (A.map (·.1)).map fun i => (((codes[i]?).map (·.val)).getD 0, i) := by
    rw [List.map_map]
    refine List.map_congr_left fun p hpA => ?_
    simp only [Function.comp, h.entry p hpA, Option.map_some, Option.getD_some, entryOf]
  have hperm : (sortBy pairLe (codes.zipIdx.map fun p => (p.1.val, p.2))).Perm (A.map fun p => (wordOf p.2, p.1)) := by
    refine (sortBy_perm _ _).trans ?_
    rw [e1, e2]
    exact (h.syms.map _).symm
  refine lex_unique hperm (sortBy_sorted _ ?_ ?_ _) hp.sorted
  · intro a b
    simp only [pairLe, decide_eq_true_eq]
    omega
  · intro a b c hab hbc
    simp only [pairLe, decide_eq_true_eq] at hab hbc ⊢
    omega

/-- A word between a code and the next one begins with the code. -/
theorem prefix_of_span {c : List Bool} {w : Nat} (hc : c.length ≤ 32) (h1 : wordOf c ≤ w) (h2 : w < wordOf c + 2 ^ (32 - c.length))
    (hw : w < 2 ^ 32) : c <+: natBits 32 w := by
  have hpos := Nat.two_pow_pos (32 - c.length)
  have e : toNat ((natBits 32 w).take c.length) = toNat c := by
    rw [toNat_take _ _ (by simpa using hc), Bits.natBits_length, Bits.toNat_natBits, Nat.mod_eq_of_lt hw]
    unfold wordOf at h1 h2
    apply Nat.le_antisymm
    · rw [← Nat.lt_succ_iff, Nat.div_lt_iff_lt_mul hpos, Nat.succ_mul]
      exact h2
    · rw [Nat.le_div_iff_mul_le hpos]
      exact h1
  have := congrArg (natBits c.length) e
  rw [Bits.natBits_toNat _ _ (by simp; omega), Bits.natBits_toNat _ _ rfl] at this
  rw [← this]
  exact List.take_prefix _ _

/-- What is known of an object after Init. -/
structure IsCoder (h : Coder) (codes : List (List Bool)) : Prop where
  len : codes.length = 257
  free : PrefixFree codes
  full : Complete codes
  nonempty : ∀ c ∈ codes, c ≠ []
  short : ∀ c ∈ codes, c.length ≤ 32
  table : h.codes = codes.map entryOf
  valid : ∀ e ∈ h.entries, e.valid = true
  look : ∀ w, w < 2 ^ 32 → ∃ i c, codes[i]? = some c ∧ c <+: natBits 32 w ∧ Look h.branches h.entries w 4 0 i

theorem word_look {h : Coder} {w i : Nat} (hl : Look h.branches h.entries w 4 0 i) {c : List Bool} (hc : h.codes[i]? = some (entryOf c))
    (h32 : c.length ≤ 32) : decodeFromWord h w = .ok (i, c.length) := by
  obtain ⟨d, e, d1, d2, d3⟩ := lookups_of 4 0 hl
  have hcode : codeAt h i = .ok (entryOf c) := by simp only [codeAt, hc]
  simp only [decodeFromWord, d1, d2, d3, bind, Except.bind, hcode, pure, Except.pure, entryOf, Nat.mod_eq_of_lt (show c.length < 256 by omega)]

theorem IsCoder.word {h : Coder} {codes : List (List Bool)} (hc : IsCoder h codes) (w : Nat) (hw : w < 2 ^ 32) :
    ∃ i c, codes[i]? = some c ∧ c <+: natBits 32 w ∧ decodeFromWord h w = .ok (i, c.length) := by
  obtain ⟨i, c, h1, h2, h3⟩ := hc.look w hw
  refine ⟨i, c, h1, h2, word_look h3 ?_ (hc.short c (List.mem_of_getElem? h1))⟩
  rw [hc.table, List.getElem?_map, h1]
  rfl

theorem filled_valid (l : List DecodeEntry) : ∀ prev, (prev.valid = true ∨ HeadValid l) → ∀ e ∈ filled prev l, e.valid = true := by
  induction l with
  | nil => intro prev _ e he; cases he
  | cons x l ih =>
    intro prev hv e he
    have hx : (if x.valid then x else prev).valid = true := by
      split
      · assumption
      · rename_i hx
        rcases hv with hv | ⟨y, ys, hy, hv⟩
        · exact hv
        · cases hy
          exact absurd hv hx
    rcases List.mem_cons.1 he with rfl | he
    · exact hx
    · exact ih _ (.inl hx) e he

theorem fits_lens {n : Nat} {L : List (Nat × Nat)} {A : List (Nat × List Bool)} {codes : List CodeEntry} {t : Tree W} (h : CanonOf t n L A codes) :
    ∀ p ∈ L, ((codes[p.2]?).map (·.len)).getD 0 = p.1 := by
  intro p hp
  have h1 : p ∈ A.map fun p => (p.2.length, p.1) := by rw [h.eq, assign_len]; exact hp
  obtain ⟨q, hq, rfl⟩ := List.mem_map.1 h1
  simp only [h.entry q hq, Option.map_some, Option.getD_some, entryOf]

theorem buildDecode_ok {t : Tree W} {L : List (Nat × Nat)} {A : List (Nat × List Bool)} {codes : List CodeEntry}
    (h : CanonOf t 257 L A codes) :
    ∃ D E, buildDecode codes [] [] = .ok ⟨E, filled DecodeEntry.none D⟩ ∧
      IsCoder ⟨codes, E, filled DecodeEntry.none D⟩ (codesFrom A 257) := by
  obtain ⟨hco, htab, h32⟩ := codesOf_canon h
  have hlens := fits_lens h
  obtain ⟨len, hlen⟩ : ∃ len : Nat → Nat, len = fun s => ((codes[s]?).map (·.len)).getD 0 := ⟨_, rfl⟩
  have hpart : Part len 0 (A.map fun p => (wordOf p.2, p.1)) (2 ^ 32) := by
    have := assign_part (len := len) L h.fits (by rw [hlen]; exact hlens)
    rw [← h.eq] at this
    simpa using this
  have hby := byCode_eq h hpart
  have hlenA : ∀ p ∈ A, len p.1 = p.2.length := by
    intro p hp
    simp only [hlen, h.entry p hp, Option.map_some, Option.getD_some, entryOf]
  have hAn : A.length = 257 := by simpa using h.syms.length_eq
  have hAL : A.map (fun p => (p.2.length, p.1)) = L := by rw [h.eq, assign_len]
  have hsorted : (A.map fun p => (wordOf p.2, p.1)).Pairwise fun a b => len a.2 ≤ len b.2 := by
    rw [List.pairwise_map]
    have hs := h.fits.sorted
    rw [← hAL, List.pairwise_map] at hs
    refine hs.imp_of_mem ?_
    intro a b ha hb hab
    simp only [hlenA a ha, hlenA b hb]
    exact hab
  have hin : InTable codes len (A.map fun p => (wordOf p.2, p.1)) := by
    intro c hc
    obtain ⟨p, hp, rfl⟩ := List.mem_map.1 hc
    have := (codesFrom_mem h.syms p hp).1
    exact ⟨by simp only; omega, _, h.entry p hp, by simp only [hlenA p hp, entryOf]⟩
  obtain ⟨D, E, e1, e2, e3, e4, e5⟩ := helper_ok (codes := codes) (len := len) 33 0 (by omega) (by omega)
    (A.map fun p => (wordOf p.2, p.1)) 0 8 ⟨[], []⟩ (by simpa using hpart) (by simp) (by omega) (by omega) (by omega) (.inl rfl)
    (fun c hc => by
      have := (hpart.bounds c hc).2.2.1
      omega) hsorted hin (by simp [hAn]) (by simp)
  simp only [List.nil_append, Nat.mul_zero, List.length_nil, Nat.sub_zero] at e1 e5
  refine ⟨D, E, ?_, hco.len, hco.free, hco.full, hco.nonempty, h32, htab, filled_valid D _ (.inr e2), ?_⟩
  · unfold buildDecode
    simp only [hby, e1, bind, Except.bind, fill_none e2, pure, Except.pure]
  · intro w hw
    obtain ⟨c, hc, c1, c2, c3⟩ := e5 (filled DecodeEntry.none D) E (fun i x hx => by simpa using hx)
      (fun i x hx => by simpa using hx) w (by omega) (by omega)
    obtain ⟨p, hp, rfl⟩ := List.mem_map.1 hc
    simp only [span, hlenA p hp] at c1 c2 c3
    have hget := (codesFrom_mem h.syms p hp).2
    have hp32 := h32 _ (List.mem_of_getElem? hget)
    exact ⟨p.1, p.2, hget, prefix_of_span hp32 c1 c2 hw, c3⟩

/-! ### Init -/

variable (ops : Weights W)

theorem buildTree_spec {table : FreqTable} {div : Nat} {t : Tree W} (h : buildTree ops table div = .ok t) :
    buildCodeTree ops table div = .ok t ∧ t.syms.Perm (table.map (·.1)) ∧ t.DepthOk ∧ ∃ w d l r, t = Tree.node w d l r := by
  unfold buildTree at h
  split at h
  · cases h
  · rename_i hl
    cases hm : makeLeaves ops div table with
    | error e => simp only [hm, bind, Except.bind] at h; cases h
    | ok ls =>
      obtain ⟨t', e, p, d, n, hb⟩ := buildCodeTree_ok ops table div (by omega) hm
      have hlen : ((sortBy (leafLe ops) ls).map fun p => Tree.leaf p.1 p.2).length = ls.length := by
        rw [List.length_map]
        exact (sortBy_perm _ ls).length_eq
      simp only [hm, bind, Except.bind, hlen, hb, List.head?_cons, pure, Except.pure, Except.ok.injEq] at h
      subst h
      exact ⟨e, p, d, n⟩

theorem retry_spec {table : FreqTable} (fuel : Nat) : ∀ {div : Nat} {t : Tree W}, retry ops table fuel div = .ok t →
    ∃ d, buildTree ops table d = .ok t ∧ t.depth ≤ 32 := by
  induction fuel with
  | zero => intro div t h; cases h
  | succ fuel ih =>
    intro div t h
    simp only [retry, bind, Except.bind] at h
    split at h
    · cases h
    · cases hb : buildTree ops table div with
      | error e => simp only [hb] at h; cases h
      | ok t' =>
        simp only [hb] at h
        split at h
        · exact ih h
        · simp only [pure, Except.pure, Except.ok.injEq] at h
          subst h
          exact ⟨div, hb, by omega⟩

theorem init_spec {table : FreqTable} (hsyms : table.map (·.1) = List.range 257) {h : Coder} (hi : init ops Coder.fresh table = .ok h) :
    ∃ codes t d, retry ops table 33 1 = .ok t ∧ buildTree ops table d = .ok t ∧ CodesOf t 257 codes ∧ IsCoder h codes := by
  unfold init at hi
  cases hr : retry ops table 33 1 with
  | error e => simp only [hr, bind, Except.bind] at hi; cases hi
  | ok t =>
    obtain ⟨d, hb, hd⟩ := retry_spec ops 33 hr
    obtain ⟨-, hs, hdo, hn⟩ := buildTree_spec ops hb
    rw [hsyms] at hs
    obtain ⟨codes', L, A, hc, hcan⟩ := canonicalC_spec t 257 (by norm_num) hn hs (by rw [← Tree.depth_eq hdo]; exact hd)
      Coder.fresh.codes List.length_replicate
    obtain ⟨D, E, hde, hcoder⟩ := buildDecode_ok hcan
    have : Coder.fresh.branches = [] ∧ Coder.fresh.entries = [] := ⟨rfl, rfl⟩
    simp only [hr, bind, Except.bind, hc, this.1, this.2, hde, pure, Except.pure, Except.ok.injEq] at hi
    subst hi
    exact ⟨_, t, d, rfl, hb, (codesOf_canon hcan).1, hcoder⟩

/-- Init succeeds as soon as a tree of at most 32 levels is found. -/
theorem init_ok {table : FreqTable} (hsyms : table.map (·.1) = List.range 257) {t : Tree W} (hr : retry ops table 33 1 = .ok t) :
    ∃ h, init ops Coder.fresh table = .ok h := by
  obtain ⟨d, hb, hd⟩ := retry_spec ops 33 hr
  obtain ⟨-, hs, hdo, hn⟩ := buildTree_spec ops hb
  rw [hsyms] at hs
  obtain ⟨codes', L, A, hc, hcan⟩ := canonicalC_spec t 257 (by norm_num) hn hs (by rw [← Tree.depth_eq hdo]; exact hd)
    Coder.fresh.codes List.length_replicate
  obtain ⟨D, E, hde, hcoder⟩ := buildDecode_ok hcan
  have : Coder.fresh.branches = [] ∧ Coder.fresh.entries = [] := ⟨rfl, rfl⟩
  exact ⟨⟨codes', E, filled DecodeEntry.none D⟩, by simp only [init, hr, bind, Except.bind, hc, this.1, this.2, hde, pure, Except.pure]⟩

/-! ### The code is that of huffman.py -/

theorem canonicalTable_eq (ord : Dict Nat (List Nat) → List (Nat × List Nat)) (t : Tree W) (n : Nat)
    (hs : t.syms.Perm (List.range n)) {L : List (Nat × Nat)} (hL : L.Perm (t.leaves 0)) (hlex : L.Pairwise fun a b => pairLe a b = true)
    (hfits : Fits 32 0 0 L) (hord : Ascending ord t) :
    canonicalTable ord t = .ok ((codesFrom (assign 0 0 L) n).map fun c => (pack c, c.length)) := by
  obtain ⟨d, hd, hp, hwf⟩ := discover_tree t
  obtain ⟨ho1, ho2⟩ := hord d hd
  have hperm : (order (ord d)).Perm (t.leaves 0) := (order_perm _).trans ((flat_perm ho1).trans hp)
  have hLe : order (ord d) = L := lex_unique (hperm.trans hL.symm) (order_lex _ ho2) hlex
  have hsyms : (L.map (·.2)).Perm (List.range n) := by
    refine (hL.map _).trans ?_
    rw [Tree.leaves_syms]
    exact hs
  have hnd : (L.map (·.2)).Nodup := hsyms.nodup_iff.2 List.nodup_range
  obtain ⟨st, he, ht⟩ := canonAll_spec L { code := -1, prev := 0, table := [] } hfits rfl rfl hnd (fun _ _ => rfl)
  simp only [List.nil_append] at ht
  have hA : ((assign 0 0 L).map (·.1)).Perm (List.range n) := by rw [assign_syms]; exact hsyms
  have hAlen : (assign 0 0 L).length = n := by simpa using hA.length_eq
  generalize assign 0 0 L = A at *
  unfold canonicalTable
  simp only [bind, Except.bind, hd, canonLoop_eq, hLe, he]
  rw [ht, List.length_map, hAlen, tabulate_spec _ _ (fun i => (pack ((Dict.get? A i).getD []), ((Dict.get? A i).getD []).length))]
  · simp only [codesFrom, List.map_map]
    rfl
  · intro i hi
    cases hg : Dict.get? A i with
    | none =>
      rw [Dict.get?_none] at hg
      exact absurd (hA.mem_iff.2 hi) hg
    | some c =>
      rw [get?_map A (fun c => (pack c, c.length)), hg]
      rfl

theorem same_code (ord : Dict Nat (List Nat) → List (Nat × List Nat)) (t : Tree W) (n : Nat) (hn : n < 2 ^ 32)
    (hnode : ∃ w d l r, t = Tree.node w d l r) (hs : t.syms.Perm (List.range n)) (hh : t.height ≤ 32) (codes : List CodeEntry)
    (hlen : codes.length = n) (hord : Ascending ord t) :
    ∃ codes', canonicalC t codes = .ok codes' ∧ canonicalTable ord t = .ok (codes'.map fun e => (e.vec, e.len)) := by
  obtain ⟨codes', L, A, hc, hcan⟩ := canonicalC_spec t n hn hnode hs hh codes hlen
  refine ⟨codes', hc, ?_⟩
  rw [canonicalTable_eq ord t n hs hcan.perm hcan.lex hcan.fits hord]
  obtain rfl := hcan.eq
  have : codes' = (codesFrom (assign 0 0 L) n).map entryOf := by
    refine List.ext_getElem? fun i => ?_
    by_cases hi : i < n
    · obtain ⟨c, hc⟩ : ∃ c, (codesFrom (assign 0 0 L) n)[i]? = some c :=
        ⟨_, List.getElem?_eq_getElem (by simpa [codesFrom] using hi)⟩
      rw [hcan.entry _ (codesFrom_of hcan.syms i c hc), List.getElem?_map, hc]
      rfl
    · rw [List.getElem?_eq_none (by rw [hcan.len]; omega), List.getElem?_eq_none (by simp [codesFrom]; omega)]
  rw [this, List.map_map]
  rfl

/-! ### Init on an object used before -/

theorem store_keeps {α : Type} {l l' : List α} {i : Nat} {x : α} (h : store l i x = .ok l') (n : Nat) (hn : n ≤ i) :
    l'.take n = l.take n ∧ l'.length = l.length := by
  unfold store at h
  split at h
  · cases h
    exact ⟨by rw [List.take_set_of_le hn], by simp⟩
  · cases h

/-- The call only adds to the tables. -/
def Adds (st st' : Tables) : Prop := st.branches <+: st'.branches ∧ st.entries <+: st'.entries

theorem runs_keep {codes : List CodeEntry} {rec : List (Nat × Nat) → Nat → Nat → Tables → Py Tables}
    (hrec : ∀ seg msb bw st st', rec seg msb bw st = .ok st' → Adds st st') (bi base msb bw : Nat) (fuel : Nat) :
    ∀ (seg : List (Nat × Nat)) (st st' : Tables), base ≤ st.entries.length → buildRuns codes rec bi base msb bw fuel seg st = .ok st' →
    st.branches <+: st'.branches ∧ st.entries.take base = st'.entries.take base ∧ base ≤ st'.entries.length := by
  induction fuel with
  | zero =>
    intro seg st st' hb h
    cases seg with
    | nil => simp only [buildRuns, Except.ok.injEq] at h; subst h; exact ⟨List.prefix_rfl, rfl, hb⟩
    | cons c cs => simp only [buildRuns] at h; cases h
  | succ fuel ih =>
    intro seg st st' hb h
    cases seg with
    | nil => simp only [buildRuns, Except.ok.injEq] at h; subst h; exact ⟨List.prefix_rfl, rfl, hb⟩
    | cons c cs =>
      simp only [buildRuns, bind, Except.bind] at h
      split at h
      · cases h
      rename_i idx _
      split at h
      · cases h
      rename_i rr _
      split at h
      · split at h
        · cases h
        rename_i es hes
        obtain ⟨k1, k2⟩ := store_keeps hes base (by omega)
        obtain ⟨a, b, c⟩ := ih _ _ _ (by simp only; omega) h
        exact ⟨a, by rw [← k1]; exact b, c⟩
      · split at h
        swap
        · cases h
        split at h
        · cases h
        rename_i es hes
        split at h
        · cases h
        rename_i st1 hst1
        obtain ⟨k1, k2⟩ := store_keeps hes base (by omega)
        obtain ⟨r1, r2⟩ := hrec _ _ _ _ _ hst1
        simp only at r1 r2
        have hl := r2.length_le
        obtain ⟨a, b, c⟩ := ih _ _ _ (by omega) h
        refine ⟨r1.trans a, ?_, c⟩
        rw [← k1, ← b]
        obtain ⟨x, hx⟩ := r2
        rw [← hx, List.take_append_of_le_length (by omega)]

theorem helper_adds (codes : List CodeEntry) (fuel : Nat) : ∀ (seg : List (Nat × Nat)) (msb bw : Nat) (st st' : Tables),
    buildHelper codes fuel seg msb bw st = .ok st' → Adds st st' := by
  induction fuel with
  | zero => intro seg msb bw st st' h; cases h
  | succ fuel ih =>
    intro seg msb bw st st' h
    simp only [buildHelper, bind, Except.bind] at h
    split at h
    · cases h
    obtain ⟨a, b, c⟩ := runs_keep ih _ _ _ _ _ _ _ _ (by simp) h
    simp only at a b
    refine ⟨(List.prefix_append _ _).trans a, ?_⟩
    rw [List.take_left] at b
    rw [b]
    exact List.take_prefix _ _

theorem fill_valid (l : List DecodeEntry) : ∀ (prev : Option DecodeEntry) (m r : List DecodeEntry), (∀ e ∈ l, e.valid = true) →
    fill prev (l ++ m) = .ok r → l <+: r := by
  induction l with
  | nil => intro prev m r _ _; exact List.nil_prefix
  | cons e l ih =>
    intro prev m r hv h
    simp only [List.cons_append, fill, bind, Except.bind, hv e (by simp), if_true] at h
    split at h
    · cases h
    rename_i es hes
    cases h
    exact List.cons_prefix_cons.2 ⟨rfl, ih _ _ _ (fun x hx => hv x (by simp [hx])) hes⟩

theorem Look.mono {Br Br' : List Branch} {F F' : List DecodeEntry} (hB : Br <+: Br') (hF : F <+: F') {w : Nat} (n : Nat) :
    ∀ {b sym : Nat}, Look Br F w n b sym → Look Br' F' w n b sym := by
  have get : ∀ {α : Type} {l l' : List α} {i : Nat} {x : α}, l <+: l' → l[i]? = some x → l'[i]? = some x := by
    rintro α l l' i x ⟨m, rfl⟩ h
    rw [List.getElem?_append_left (List.getElem?_eq_some_iff.1 h).1]
    exact h
  induction n with
  | zero => intro b sym h; exact h
  | succ n ih =>
    rintro b sym ⟨br, e, h1, h2, h3⟩
    refine ⟨br, e, get hB h1, get hF h2, ?_⟩
    split
    · rename_i hn; rw [if_pos hn] at h3; exact h3
    · rename_i hn; rw [if_neg hn] at h3; exact ih h3

/-- Init again: the codes are those of the new table, and the lookups lead where they did. -/
theorem init_again {h : Coder} {codes : List (List Bool)} (hc : IsCoder h codes) {table : FreqTable}
    (hsyms : table.map (·.1) = List.range 257) {h' : Coder} (hi : init ops h table = .ok h') :
    ∃ codes' t d, buildTree ops table d = .ok t ∧ CodesOf t 257 codes' ∧ (∀ c ∈ codes', c.length ≤ 32) ∧ h'.codes = codes'.map entryOf ∧
      ∀ w, w < 2 ^ 32 → ∃ i c c', codes[i]? = some c ∧ c <+: natBits 32 w ∧ codes'[i]? = some c' ∧
        decodeFromWord h' w = .ok (i, c'.length) := by
  unfold init at hi
  cases hr : retry ops table 33 1 with
  | error e => simp only [hr, bind, Except.bind] at hi; cases hi
  | ok t =>
    obtain ⟨d, hb, hd⟩ := retry_spec ops 33 hr
    obtain ⟨-, hs, hdo, hn⟩ := buildTree_spec ops hb
    rw [hsyms] at hs
    obtain ⟨cs, L, A, hcc, hcan⟩ := canonicalC_spec t 257 (by norm_num) hn hs (by rw [← Tree.depth_eq hdo]; exact hd)
      h.codes (by rw [hc.table, List.length_map, hc.len])
    obtain ⟨ho, htab, h32⟩ := codesOf_canon hcan
    simp only [hr, bind, Except.bind, hcc] at hi
    split at hi
    · cases hi
    rename_i st hst
    cases hi
    unfold buildDecode at hst
    simp only [bind, Except.bind] at hst
    split at hst
    · cases hst
    rename_i st1 hst1
    split at hst
    · cases hst
    rename_i es hes
    cases hst
    obtain ⟨a1, a2⟩ := helper_adds _ _ _ _ _ _ _ hst1
    simp only at a1 a2
    have hent : h.entries <+: es := by
      obtain ⟨m, hm⟩ := a2
      rw [← hm] at hes
      exact fill_valid h.entries none m es hc.valid hes
    refine ⟨codesFrom A 257, t, d, hb, ho, h32, htab, fun w hw => ?_⟩
    obtain ⟨i, c, h1, h2, h3⟩ := hc.look w hw
    have hlt : i < 257 := by rw [← hc.len]; exact (List.getElem?_eq_some_iff.1 h1).1
    obtain ⟨c', hc'⟩ : ∃ c', (codesFrom A 257)[i]? = some c' := ⟨_, List.getElem?_eq_getElem (by rw [ho.len]; exact hlt)⟩
    refine ⟨i, c, c', h1, h2, hc', word_look (Look.mono a1 hent 4 h3) ?_ (h32 c' (List.mem_of_getElem? hc'))⟩
    simp only
    rw [htab, List.getElem?_map, hc']
    rfl

end Verif.Cpp
