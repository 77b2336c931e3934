import Verif.Text.Http1
import Verif.Text.Seven
/-
The `simple` codec: names, references, sessions.
-/
namespace Verif.Text
open Verif Spec

/-! ### names -/

/-- The name sent for `k`. -/
def nm (k : Str) : Str := if k.head? = some 58 then k else (lookups.get? k).getD (33 :: k)

/-- The key under which `k` is kept: `:host` is kept as `h`. -/
def slot (k : Str) : Str := if k = b!":host" then b!"h" else k

theorem hdrName_nm {k : Str} (h : k ≠ []) : hdrName k = .ok (nm k) := by
  cases k with
  | nil => exact absurd rfl h
  | cons c cs =>
    unfold hdrName nm
    by_cases hc : c = 58
    · simp [hc]
    · simp [hc]

theorem table_ok : ∀ kv ∈ lookups, kv.1 = b!":host" ∨
    (expandName kv.2 = .ok (some kv.1) ∧ refName kv.2 = .ok kv.1) := by decide +kernel

theorem table_names : ∀ kv ∈ lookups, kv.2 ≠ [] ∧ lower kv.2 = kv.2 ∧ 58 ∉ kv.2 ∧ 44 ∉ kv.2 ∧
    (kv.2.all fun c => !isWs c) = true ∧ (kv.2.all fun c => decide (c < 128)) = true := by decide +kernel

theorem nm_cases (k : Str) : (k.head? = some 58 ∧ nm k = k) ∨
    (k.head? ≠ some 58 ∧ (k, nm k) ∈ lookups ∧ k ≠ b!":host") ∨ (k.head? ≠ some 58 ∧ nm k = 33 :: k) := by
  unfold nm
  by_cases h : k.head? = some 58
  · left; rw [if_pos h]; exact ⟨h, rfl⟩
  · right
    rw [if_neg h]
    cases hl : lookups.get? k with
    | none => right; exact ⟨h, rfl⟩
    | some t => left; exact ⟨h, Dict.get?_mem hl, fun hk => h (by rw [hk]; rfl)⟩

theorem expandName_nm (k : Str) : expandName (nm k) = .ok (some (slot k)) := by
  rcases nm_cases k with ⟨h, e⟩ | ⟨h, hm, hh⟩ | ⟨h, e⟩
  · rw [e]
    cases k with
    | nil => exact absurd h (by simp)
    | cons c cs =>
      simp only [List.head?_cons, Option.some.injEq] at h
      subst h
      unfold expandName slot
      rw [if_neg (by simp)]
      by_cases hh : 58 :: cs = b!":host"
      · rw [if_pos hh, if_pos hh]
      · rw [if_neg hh, if_neg hh]; simp
  · rcases table_ok _ hm with h1 | h1
    · exact absurd h1 hh
    · rw [h1.1, slot, if_neg hh]
  · have hh : k ≠ b!":host" := fun hk => h (by rw [hk]; rfl)
    rw [e, slot, if_neg hh, expandName, if_neg (by simp), if_neg (by simp)]
    simp

theorem nm_colon {k : Str} (h : (nm k).head? = some 58) : nm k = k := by
  rcases nm_cases k with ⟨_, e⟩ | ⟨_, hm, _⟩ | ⟨_, e⟩
  · exact e
  · have := (table_names _ hm).2.2.1
    exact absurd (List.mem_of_mem_head? h) this
  · rw [e] at h; simp at h

theorem refName_nm {k : Str} (h : k.head? ≠ some 58) : refName (nm k) = .ok k := by
  rcases nm_cases k with ⟨h', _⟩ | ⟨_, hm, hh⟩ | ⟨_, e⟩
  · exact absurd h' h
  · rcases table_ok _ hm with h1 | h1
    · exact absurd h1 hh
    · exact h1.2
  · rw [e, refName]; simp

theorem slot_inj {a b : Str} (ha : a ≠ b!"h") (hb : b ≠ b!"h") (h : slot a = slot b) : a = b := by
  unfold slot at h
  by_cases h1 : a = b!":host" <;> by_cases h2 : b = b!":host"
  · rw [h1, h2]
  · rw [if_pos h1, if_neg h2] at h; exact absurd h.symm hb
  · rw [if_neg h1, if_pos h2] at h; exact absurd h ha
  · rwa [if_neg h1, if_neg h2] at h

theorem nm_slot {a b : Str} (h : nm a = nm b) : slot a = slot b := by
  have := expandName_nm a
  rw [h, expandName_nm b] at this
  simpa using this.symm

theorem nm_ne_ref (k : Str) : nm k ≠ b!"ref" := by
  intro h
  have := expandName_nm k
  rw [h] at this
  have h2 : expandName b!"ref" = .ok none := by decide +kernel
  rw [h2] at this
  exact absurd this (by simp)

theorem nm_ne_h (k : Str) : nm k ≠ b!"h" := by
  intro h
  have := expandName_nm k
  rw [h] at this
  have h2 : expandName b!"h" = .ok (some b!":host") := by decide +kernel
  rw [h2] at this
  simp only [Except.ok.injEq, Option.some.injEq] at this
  unfold slot at this
  split at this
  · exact absurd this (by decide)
  · rename_i hc; exact hc this.symm

theorem lower_cons (c : Nat) (s : Str) : lower (c :: s) = lowerChar c :: lower s := rfl

theorem nm_name {k : Str} (hk : Name lower k) : Name lower (nm k) := by
  rcases nm_cases k with ⟨_, e⟩ | ⟨_, hm, hh⟩ | ⟨h, e⟩
  · rw [e]; exact hk
  · have := table_names _ hm
    refine ⟨this.1, this.2.1, ?_, .inl this.2.2.1⟩
    intro h10
    have h2 := List.all_eq_true.1 this.2.2.2.2.1 10 h10
    exact absurd h2 (by decide)
  · rw [e]
    refine ⟨by simp, ?_, ?_, ?_⟩
    · rw [lower_cons, hk.lowercase]; rfl
    · intro h10
      rcases List.mem_cons.1 h10 with h10 | h10
      · exact absurd h10 (by decide)
      · exact hk.oneLine h10
    · left
      intro h58
      rcases List.mem_cons.1 h58 with h58 | h58
      · exact absurd h58 (by decide)
      · rcases hk.colon with hc | ⟨n, hn, _⟩
        · exact hc h58
        · rw [hn] at h; simp at h

/-- The name of a reference is a word without comma. -/
theorem nm_word {k : Str} (h : k.head? ≠ some 58) (hw : Word isWs k) (hc : 44 ∉ k) : Word isWs (nm k) ∧ 44 ∉ nm k := by
  rcases nm_cases k with ⟨h', _⟩ | ⟨_, hm, _⟩ | ⟨_, e⟩
  · exact absurd h' h
  · have := table_names _ hm
    refine ⟨⟨this.1, fun c hc => ?_⟩, this.2.2.2.1⟩
    have h2 := List.all_eq_true.1 this.2.2.2.2.1 c hc
    simpa using h2
  · rw [e]
    refine ⟨⟨by simp, fun c hc => ?_⟩, ?_⟩
    · rcases List.mem_cons.1 hc with rfl | hc
      · decide
      · exact hw.2 c hc
    · intro h44
      rcases List.mem_cons.1 h44 with h44 | h44
      · exact absurd h44 (by decide)
      · exact hc h44

/-! ### the compressor's loop -/

/-- What is sent literally. -/
def literal (D : Option Dates) (R : List Str) (h : Dict Str Str) : Dict Str Str :=
  (h.filter fun kv => decide (kv.1 ∉ R ∧ kv.1 ∉ ignoreHdrs)).map fun kv => (nm kv.1, sendValue D kv.1 kv.2)

theorem mem_literal {D : Option Dates} {R : List Str} {h : Dict Str Str} {n v : Str} :
    (n, v) ∈ literal D R h ↔ ∃ k w, (k, w) ∈ h ∧ k ∉ R ∧ k ∉ ignoreHdrs ∧ nm k = n ∧ sendValue D k w = v := by
  simp only [literal, List.mem_map, List.mem_filter, decide_eq_true_eq, Prod.mk.injEq]
  constructor
  · rintro ⟨⟨k, v'⟩, ⟨h1, h2, h3⟩, h4, h5⟩; exact ⟨k, v', h1, h2, h3, h4, h5⟩
  · rintro ⟨k, w, h1, h2, h3, h4, h5⟩; exact ⟨(k, w), ⟨h1, h2, h3⟩, h4, h5⟩

/-- What may be sent as a reference. -/
def RefOk (st : Simple) (items : List (Str × Str)) (k : Str) : Prop :=
  (k.head? ≠ some 58 ∨ k = b!":host") ∧ ∃ v, (k, v) ∈ items ∧ truthy st.lastC = true ∧ (st.lastC.getD []).get? k = some v

theorem compressLoop_spec (D : Option Dates) (st : Simple) (items : List (Str × Str)) : ∀ (headers : Dict Str Str) (refs : List Str),
    (∀ kv ∈ items, kv.1 ≠ []) → (items.map Prod.fst).Nodup → (headers.keys ++ items.map fun kv => nm kv.1).Nodup →
    ∃ R, compressLoop D st items headers refs = .ok (headers ++ literal D R items, refs ++ R.map slot) ∧
      ∀ k ∈ R, RefOk st items k := by
  induction items with
  | nil => intro headers refs _ _ _; exact ⟨[], by simp [compressLoop, literal], by simp⟩
  | cons kv items ih =>
    obtain ⟨name, value⟩ := kv
    intro headers refs hne hnd hnm
    have hne0 : name ≠ [] := hne (name, value) (by simp)
    have hne' : ∀ kv ∈ items, kv.1 ≠ [] := fun x hx => hne x (by simp [hx])
    rw [List.map_cons, List.nodup_cons] at hnd
    have hnm' : (headers.keys ++ items.map fun kv => nm kv.1).Nodup := by
      refine List.Nodup.sublist ?_ hnm
      rw [List.map_cons]
      exact List.Sublist.append_left (List.sublist_cons_self _ _) _
    have lift : ∀ k, RefOk st items k → RefOk st ((name, value) :: items) k := by
      rintro k ⟨h1, v, h2, h3⟩; exact ⟨h1, v, by simp [h2], h3⟩
    have hfresh : ∀ R : List Str, (∀ k ∈ R, RefOk st items k) → name ∉ R := by
      intro R hR hc
      obtain ⟨_, v, h2, _⟩ := hR name hc
      exact hnd.1 (List.mem_map.2 ⟨_, h2, rfl⟩)
    have hsame : sameAsLast st name value refs.length = true →
        truthy st.lastC = true ∧ (st.lastC.getD []).get? name = some value := by
      unfold sameAsLast
      simp only [Bool.and_eq_true, decide_eq_true_eq]
      rintro ⟨⟨h1, h2⟩, _⟩; exact ⟨h1, h2⟩
    have hlit : ∀ R, literal D (name :: R) ((name, value) :: items) = literal D R items := by
      intro R
      unfold literal
      rw [List.filter_cons, if_neg (by simp)]
      congr 1
      refine List.filter_congr ?_
      rintro ⟨k, v⟩ hk
      have : k ≠ name := by rintro rfl; exact hnd.1 (List.mem_map.2 ⟨_, hk, rfl⟩)
      simp [this]
    cases hn : name with
    | nil => exact absurd hn hne0
    | cons c cs =>
      rw [compressLoop]
      rw [← hn]
      by_cases h1 : c ≠ 58 ∧ sameAsLast st name value refs.length = true
      · rw [if_pos h1]
        obtain ⟨R, hR, hok⟩ := ih headers (refs ++ [name]) hne' hnd.2 hnm'
        have hhead : name.head? ≠ some 58 := by rw [hn]; simp [h1.1]
        have hslot : slot name = name := if_neg (fun hh => hhead (by rw [hh]; rfl))
        refine ⟨name :: R, ?_, ?_⟩
        · rw [hR, hlit, List.map_cons, hslot]; simp
        · intro k hk
          rcases List.mem_cons.1 hk with rfl | hk
          · exact ⟨.inl hhead, value, by simp, hsame h1.2⟩
          · exact lift k (hok k hk)
      · rw [if_neg h1]
        by_cases h2 : name = b!":host" ∧ sameAsLast st name value refs.length = true
        · rw [if_pos h2]
          obtain ⟨R, hR, hok⟩ := ih headers (refs ++ [b!"h"]) hne' hnd.2 hnm'
          have hslot : slot name = b!"h" := if_pos h2.1
          refine ⟨name :: R, ?_, ?_⟩
          · rw [hR, hlit, List.map_cons, hslot]; simp
          · intro k hk
            rcases List.mem_cons.1 hk with rfl | hk
            · exact ⟨.inr h2.1, value, by simp, hsame h2.2⟩
            · exact lift k (hok k hk)
        · rw [if_neg h2]
          by_cases h3 : name ∈ ignoreHdrs
          · rw [if_pos h3]
            obtain ⟨R, hR, hok⟩ := ih headers refs hne' hnd.2 hnm'
            refine ⟨R, ?_, fun k hk => lift k (hok k hk)⟩
            rw [hR]
            have : literal D R ((name, value) :: items) = literal D R items := by
              unfold literal; rw [List.filter_cons, if_neg (by simp [h3])]
            rw [this]
          · rw [if_neg h3, hdrName_nm hne0]
            dsimp only
            have hk : nm name ∉ headers.keys := by
              intro hc
              rw [List.map_cons] at hnm
              exact (List.nodup_append.1 hnm).2.2 _ hc _ (by simp) rfl
            rw [Dict.set_new hk]
            obtain ⟨R, hR, hok⟩ := ih (headers ++ [(nm name, sendValue D name value)]) refs hne' hnd.2 (by
              have : Dict.keys (headers ++ [(nm name, sendValue D name value)]) = headers.keys ++ [nm name] := by simp [Dict.keys]
              rw [this]
              simpa using hnm)
            refine ⟨R, ?_, fun k hk => lift k (hok k hk)⟩
            rw [hR]
            have : literal D R ((name, value) :: items) = (nm name, sendValue D name value) :: literal D R items := by
              unfold literal
              rw [List.filter_cons, if_pos (by simp [h3, hfresh R hok])]
              rfl
            rw [this]
            simp

theorem mapM_hdrName (l : List Str) (h : ∀ k ∈ l, k ≠ []) : l.mapM hdrName = .ok (l.map nm) := by
  induction l with
  | nil => rfl
  | cons k l ih =>
    rw [List.mapM_cons, hdrName_nm (h k (by simp)), ih (fun x hx => h x (by simp [hx]))]
    rfl

/-! ### the decompressor's loops -/

/-! ### dates -/

/-- A value of the header `k` after sending and reading. -/
def normValue (D : Option Dates) (k v : Str) : Str := readValue D k (sendValue D k v)

theorem norm_other {k : Str} (h : k ∉ dateHdrs) (D : Option Dates) (v : Str) : sendValue D k v = v ∧ normValue D k v = v := by
  cases D <;> simp [normValue, readValue, sendValue, h]

theorem date_names : ∀ k ∈ dateHdrs, k.head? ≠ some 58 ∧ k ≠ b!":host" ∧ (nm k).head? ≠ some 58 ∧ (nm k).head? ≠ some 33 := by
  decide +kernel

theorem expandValue_nm (D : Option Dates) (k v : Str) : expandValue D (nm k) (slot k) (sendValue D k v) = normValue D k v := by
  by_cases h : k ∈ dateHdrs
  · obtain ⟨_, h1, h2, h3⟩ := date_names k h
    have hs : slot k = k := if_neg h1
    rw [expandValue, if_neg (by rintro (hc | hc); exacts [h2 hc, h3 hc]), hs]
    rfl
  · obtain ⟨h1, h2⟩ := norm_other h D v
    rw [h1, h2, expandValue]
    split
    · rfl
    · unfold readValue
      cases D with
      | none => rfl
      | some d =>
        have : slot k ∉ dateHdrs := by
          unfold slot
          split
          · decide
          · exact h
        simp only [if_neg this]

theorem expandLoop_spec (D : Option Dates) (items : List (Str × Str)) : ∀ (out : Dict Str Str), out.WF →
    (items.map Prod.fst).Nodup → (∀ kv ∈ items, ∃ o, expandName kv.1 = .ok o) →
    (∀ a ∈ items, ∀ b ∈ items, ∀ m, expandName a.1 = .ok (some m) → expandName b.1 = .ok (some m) → a.1 = b.1) →
    ∃ out', expandLoop D items out = .ok out' ∧ out'.WF ∧ ∀ m v, out'.get? m = some v ↔
      (∃ n w, (n, w) ∈ items ∧ expandName n = .ok (some m) ∧ expandValue D n m w = v) ∨
      ((∀ kv ∈ items, expandName kv.1 ≠ .ok (some m)) ∧ out.get? m = some v) := by
  induction items with
  | nil => intro out hwf _ _ _; exact ⟨out, rfl, hwf, by simp⟩
  | cons kv items ih =>
    obtain ⟨name, value⟩ := kv
    intro out hwf hnd hok hinj
    rw [List.map_cons, List.nodup_cons] at hnd
    obtain ⟨o, ho⟩ := hok (name, value) (by simp)
    have hok' : ∀ kv ∈ items, ∃ o, expandName kv.1 = .ok o := fun x hx => hok x (by simp [hx])
    have hinj' : ∀ a ∈ items, ∀ b ∈ items, ∀ m, expandName a.1 = .ok (some m) → expandName b.1 = .ok (some m) → a.1 = b.1 :=
      fun a ha b hb => hinj a (by simp [ha]) b (by simp [hb])
    rw [expandLoop]
    dsimp only at ho
    cases o with
    | none =>
      rw [ho]
      obtain ⟨out', h1, h2, h3⟩ := ih out hwf hnd.2 hok' hinj'
      refine ⟨out', h1, h2, fun m v => ?_⟩
      rw [h3]
      constructor
      · rintro (⟨n, w, hn, e, ew⟩ | ⟨ha, hb⟩)
        · exact .inl ⟨n, w, by simp [hn], e, ew⟩
        · refine .inr ⟨fun kv hkv => ?_, hb⟩
          rcases List.mem_cons.1 hkv with rfl | hkv
          · rw [ho]; simp
          · exact ha kv hkv
      · rintro (⟨n, w, hn, e, ew⟩ | ⟨ha, hb⟩)
        · rcases List.mem_cons.1 hn with hn | hn
          · cases hn; rw [ho] at e; simp at e
          · exact .inl ⟨n, w, hn, e, ew⟩
        · exact .inr ⟨fun kv hkv => ha kv (by simp [hkv]), hb⟩
    | some t =>
      rw [ho]
      obtain ⟨out', h1, h2, h3⟩ := ih (out.set t (expandValue D name t value)) (hwf.set _ _) hnd.2 hok' hinj'
      refine ⟨out', h1, h2, fun m v => ?_⟩
      rw [h3, get?_set']
      have hno : ∀ kv ∈ items, expandName kv.1 ≠ .ok (some t) := by
        intro kv hkv e
        have := hinj (name, value) (by simp) kv (by simp [hkv]) t ho e
        exact hnd.1 (List.mem_map.2 ⟨kv, hkv, this.symm⟩)
      constructor
      · rintro (⟨n, w, hn, e, ew⟩ | ⟨ha, hb⟩)
        · exact .inl ⟨n, w, by simp [hn], e, ew⟩
        · by_cases hmt : m = t
          · rw [if_pos hmt] at hb
            cases hb
            exact .inl ⟨name, value, by simp, by rw [ho, hmt], by rw [hmt]⟩
          · rw [if_neg hmt] at hb
            refine .inr ⟨fun kv hkv => ?_, hb⟩
            rcases List.mem_cons.1 hkv with rfl | hkv
            · rw [ho]; simp; exact fun h => hmt h.symm
            · exact ha kv hkv
      · rintro (⟨n, w, hn, e, ew⟩ | ⟨ha, hb⟩)
        · rcases List.mem_cons.1 hn with hn | hn
          · cases hn
            rw [ho] at e
            simp only [Except.ok.injEq, Option.some.injEq] at e
            subst e
            exact .inr ⟨hno, by rw [if_pos rfl, ew]⟩
          · exact .inl ⟨n, w, hn, e, ew⟩
        · refine .inr ⟨fun kv hkv => ha kv (by simp [hkv]), ?_⟩
          rw [if_neg (fun hmt => ha (name, value) (by simp) (by rw [ho, hmt]))]
          exact hb

theorem refLoop_spec (lastD : Dict Str Str) (refs : List Str) (names : List Str)
    (h : List.Forall₂ (fun r n => refName r = .ok n ∧ n ∈ lastD.keys) refs names) : ∀ (out : Dict Str Str), out.WF →
    ∃ out', refLoop lastD refs out = .ok out' ∧ out'.WF ∧
      ∀ m, out'.get? m = if m ∈ names then lastD.get? m else out.get? m := by
  induction h with
  | nil => intro out hwf; exact ⟨out, rfl, hwf, by simp⟩
  | @cons r n rs ns hrn _ ih =>
    intro out hwf
    obtain ⟨v, hv⟩ := keys_get? hrn.2
    rw [refLoop, hrn.1]
    dsimp only
    rw [hv]
    obtain ⟨out', h1, h2, h3⟩ := ih (out.set n v) (hwf.set _ _)
    refine ⟨out', h1, h2, fun m => ?_⟩
    rw [h3, get?_set']
    by_cases hm : m ∈ ns
    · rw [if_pos hm, if_pos (by simp [hm])]
    · rw [if_neg hm]
      by_cases hmn : m = n
      · rw [if_pos hmn, if_pos (by simp [hmn]), hmn, hv]
      · rw [if_neg hmn, if_neg (by simp [hm, hmn])]

/-! ### stripping -/

theorem stripBy_snoc {ws : Nat → Bool} {c : Nat} (hc : ws c = true) (s : Str) : stripBy ws (s ++ [c]) = stripBy ws s := by
  unfold stripBy
  rw [List.dropWhile_append]
  by_cases h : (s.dropWhile ws) = []
  · simp [h, hc]
  · simp [h, hc]

end Verif.Text
