import Verif.Text.SimpleLemmas
/-
One message through the `simple` codec.
-/
namespace Verif.Text
open Verif Spec

theorem isWs_blank : Blank isWs where
  space := by decide
  tab := by decide
  lf := by decide
  cr := by decide
  visible := by
    intro c h1 h2
    simp only [isWs, Bool.or_eq_false_iff, Bool.and_eq_false_iff, decide_eq_false_iff_not, beq_eq_false_iff_ne]
    omega

theorem simple_good : GoodFmt lower isWs simpleFmt [] [] where
  delim := rfl
  rws := by simp
  r10 := by simp
  vsep := rfl
  spws := by simp
  sp10 := by simp
  hostName := ⟨by decide, by decide, by decide, .inl (by decide)⟩
  hostNoColon := by decide
  ver := ⟨by decide, by decide⟩

/-- Both ends remember the previous message. -/
def Inv (D : Option Dates) (st : Simple) : Prop :=
  truthy st.lastC = true → ∃ p d, st.lastC = some p ∧ st.lastD = some d ∧
    (∀ k, k.head? ≠ some 58 → k ≠ b!"h" → d.get? k = (p.get? k).map (normValue D k)) ∧
    (st.isRequest = true → d.get? b!"h" = p.get? b!":host")

theorem value_of_plain {ws : Nat → Bool} (hws : Blank ws) {v : Str} (h : ∀ c ∈ v, ws c = false) : Value ws v := by
  refine ⟨fun hc => ?_, ?_⟩
  · have := h 10 hc
    rw [hws.lf] at this; exact absurd this (by decide)
  · rintro a p b rfl _ _ _
    exact ⟨fun c hc => h c (by simp [List.mem_of_mem_head? hc]), fun c hc => h c (by simp [List.mem_of_getLast? hc])⟩

theorem join_plain {ws : Nat → Bool} {sep : Str} (hs : ∀ c ∈ sep, ws c = false) (l : List Str)
    (h : ∀ x ∈ l, ∀ c ∈ x, ws c = false) : ∀ c ∈ joinWith sep l, ws c = false := by
  induction l with
  | nil => simp [joinWith]
  | cons a l ih =>
    cases l with
    | nil => simpa [joinWith] using h a (by simp)
    | cons b l =>
      intro c hc
      simp only [joinWith, List.mem_append] at hc
      rcases hc with (hc | hc) | hc
      · exact h a (by simp) c hc
      · exact hs c hc
      · exact ih (fun x hx => h x (by simp [hx])) c hc

theorem mem_get? {d : Dict Str Str} (hd : d.WF) {k v : Str} (h : (k, v) ∈ d) : d.get? k = some v := (get?_some_iff hd).2 h

theorem perm_wf {a b : Dict Str Str} (h : a.Perm b) (hb : b.WF) : a.WF := (h.map _).nodup_iff.2 hb

theorem perm_get? {a b : Dict Str Str} (h : a.Perm b) (hb : b.WF) (n : Str) : a.get? n = b.get? n := by
  apply Option.ext
  intro v
  rw [get?_some_iff (perm_wf h hb), get?_some_iff hb, h.mem_iff]

theorem ne_of_colon {k : Str} (h : k.head? = some 58) : k ≠ b!"h" := by rintro rfl; exact absurd h (by decide)

theorem msg_not_h {isRequest : Bool} {h : Dict Str Str} (hm : SimpleMsg isRequest h) {k : Str} (hk : k ∈ h.keys) : k ≠ b!"h" := by
  by_cases hc : k.head? = some 58
  · exact ne_of_colon hc
  · exact (hm.plain k hk hc).2.2

theorem mem_keys {d : Dict Str Str} {k v : Str} (h : (k, v) ∈ d) : k ∈ d.keys := List.mem_map.2 ⟨_, h, rfl⟩

/-- The message with every value as it arrives. -/
def normAll (D : Option Dates) (h : Dict Str Str) : Dict Str Str := h.map fun kv => (kv.1, normValue D kv.1 kv.2)

theorem mem_normAll {D : Option Dates} {h : Dict Str Str} {k v : Str} :
    (k, v) ∈ normAll D h ↔ ∃ w, (k, w) ∈ h ∧ normValue D k w = v := by
  simp only [normAll, List.mem_map, Prod.mk.injEq]
  constructor
  · rintro ⟨⟨k', w⟩, h1, rfl, h2⟩; exact ⟨w, h1, h2⟩
  · rintro ⟨w, h1, h2⟩; exact ⟨(k, w), h1, rfl, h2⟩

theorem keys_normAll (D : Option Dates) (h : Dict Str Str) : (normAll D h).keys = h.keys := by
  simp [Dict.keys, normAll]

theorem get?_normAll (D : Option Dates) (h : Dict Str Str) (k : Str) :
    (normAll D h).get? k = (h.get? k).map (normValue D k) := by
  induction h with
  | nil => rfl
  | cons x xs ih =>
    obtain ⟨a, b⟩ := x
    show Dict.get? ((a, normValue D a b) :: normAll D xs) k = _
    simp only [Dict.get?]
    split
    · rename_i e; subst e; rfl
    · exact ih

theorem wf_normAll {D : Option Dates} {h : Dict Str Str} (hwf : h.WF) : (normAll D h).WF := by
  unfold Dict.WF at *
  rw [keys_normAll]; exact hwf

theorem normAll_none (h : Dict Str Str) : normAll none h = h := by
  unfold normAll normValue
  exact List.map_id' h

/-- What is sent for a date is a value. -/
def DatesOk (D : Option Dates) : Prop := ∀ d ∈ D, ∀ v x, d.enc v = some x → Value isWs x ∧ ∀ c ∈ x, c < 128

theorem sendValue_value {D : Option Dates} (hD : DatesOk D) {k v : Str} (h : Value isWs v) : Value isWs (sendValue D k v) := by
  cases D with
  | none => exact h
  | some d =>
    unfold sendValue
    dsimp only
    split
    · cases e : d.enc v with
      | none => exact h
      | some x => exact (hD d rfl v x e).1
    · exact h

theorem sendValue_ascii {D : Option Dates} (hD : DatesOk D) {k v : Str} (h : ∀ c ∈ v, c < 128) : ∀ c ∈ sendValue D k v, c < 128 := by
  cases D with
  | none => exact h
  | some d =>
    unfold sendValue
    dsimp only
    split
    · cases e : d.enc v with
      | none => exact h
      | some x => exact (hD d rfl v x e).2
    · exact h

theorem not_date {k : Str} (h : k.head? = some 58) : k ∉ dateHdrs := fun hc => (date_names k hc).1 h

/-- What the compressor writes: the message is decodable, and the references are in the last message. -/
theorem compress_spec {D : Option Dates} (hD : DatesOk D) {st : Simple} {h : Dict Str Str} (hm : SimpleMsg st.isRequest h)
    (ord : Dict Str Str → Dict Str Str) (hord : ∀ d, (ord d).Perm d) :
    ∃ R T, simpleCompress D ord st h = .ok ({ st with lastC := some h },
        if st.seven then sevenEncode (formatHttp1 simpleFmt (ord T)) else formatHttp1 simpleFmt (ord T)) ∧
      (∀ k ∈ R, RefOk st h k) ∧ T.WF ∧ Message lower isWs st.isRequest b!"h" (ord T) ∧
      (∀ n v, (n, v) ∈ T ↔ (∃ k w, (k, w) ∈ h ∧ k ∉ R ∧ k ∉ ignoreHdrs ∧ nm k = n ∧ sendValue D k w = v) ∨
        (R ≠ [] ∧ n = b!"ref" ∧ v = joinWith [44] (R.map fun k => nm (slot k)))) := by
  have hne : ∀ kv ∈ h, kv.1 ≠ [] := fun kv hkv => (hm.names kv.1 (List.mem_map.2 ⟨kv, hkv, rfl⟩)).nonempty
  have hnm : (h.map fun kv => nm kv.1).Nodup := by
    have e : (h.map fun kv => nm kv.1) = h.keys.map nm := by simp [Dict.keys]
    rw [e]
    refine List.Nodup.map_on ?_ hm.wf
    intro a ha b hb hab
    exact slot_inj (msg_not_h hm ha) (msg_not_h hm hb) (nm_slot hab)
  obtain ⟨R, hR, hok⟩ := compressLoop_spec D st h [] [] hne hm.wf (by simpa [Dict.keys] using hnm)
  rw [List.nil_append, List.nil_append] at hR
  have hlwf : (literal D R h).WF := by
    refine List.Nodup.sublist ?_ hnm
    unfold Dict.keys literal
    rw [List.map_map]
    exact List.filter_sublist.map _
  have href : b!"ref" ∉ (literal D R h).keys := by
    intro hc
    obtain ⟨⟨n, v⟩, hx, hn⟩ := List.mem_map.1 hc
    obtain ⟨k, _, _, _, _, e, _⟩ := mem_literal.1 hx
    exact nm_ne_ref k (e.trans hn)
  have hrefs : ∀ k ∈ R, Word isWs (nm (slot k)) ∧ 44 ∉ nm (slot k) ∧ slot k ≠ [] := by
    intro k hk
    obtain ⟨h1, v, hv, _⟩ := hok k hk
    have hkk := mem_keys hv
    by_cases hh : k = b!":host"
    · subst hh
      have : nm (slot b!":host") = b!"!h" := by decide +kernel
      rw [this]
      exact ⟨⟨by decide, by decide⟩, by decide, by decide⟩
    · have hslot : slot k = k := if_neg hh
      rcases h1 with h1 | h1
      · have := hm.plain k hkk h1
        rw [hslot]
        exact ⟨(nm_word h1 this.1 this.2.1).1, (nm_word h1 this.1 this.2.1).2, this.1.1⟩
      · exact absurd h1 hh
  -- the dictionary that is formatted
  have hT : ∃ T, addRefs (literal D R h) (R.map slot) = .ok T ∧ T.WF ∧
      (∀ n v, (n, v) ∈ T ↔ (n, v) ∈ literal D R h ∨ (R ≠ [] ∧ n = b!"ref" ∧ v = joinWith [44] (R.map fun k => nm (slot k)))) := by
    unfold addRefs
    by_cases hR0 : R = []
    · subst hR0
      exact ⟨_, if_pos rfl, hlwf, by simp⟩
    · rw [if_neg (by simpa using hR0), mapM_hdrName _ (by
        intro s hs
        obtain ⟨k, hk, rfl⟩ := List.mem_map.1 hs
        exact (hrefs k hk).2.2)]
      refine ⟨_, rfl, hlwf.set _ _, fun n v => ?_⟩
      rw [Dict.set_new href, List.mem_append, List.mem_singleton, Prod.mk.injEq, List.map_map]
      simp [hR0, Function.comp_def]
  obtain ⟨T, hadd, hTwf, hTmem⟩ := hT
  have hTh : b!"h" ∉ T.keys := by
    intro hc
    obtain ⟨⟨n, v⟩, hx, hn⟩ := List.mem_map.1 hc
    rcases (hTmem n v).1 hx with h1 | ⟨_, h1, _⟩
    · obtain ⟨k, _, _, _, _, e, _⟩ := mem_literal.1 h1
      exact nm_ne_h k (e.trans hn)
    · rw [h1] at hn; exact absurd hn (by simp)
  have hmove : moveHost T = T := by unfold moveHost; rw [Dict.get?_none.2 hTh]
  refine ⟨R, T, ?_, hok, hTwf, ?_, ?_⟩
  · unfold simpleCompress
    simp only [hR, hadd, hmove, bind, Except.bind, pure, Except.pure]
  · have hkeys : ∀ n, n ∈ (ord T).keys ↔ n ∈ T.keys := fun n => ((hord T).map _).mem_iff
    have hcol : ∀ n, n.head? = some 58 → ∀ v, (n, v) ∈ T → (n, v) ∈ h ∧ n ∉ ignoreHdrs := by
      intro n hn v hv
      rcases (hTmem n v).1 hv with h1 | ⟨_, h1, _⟩
      · obtain ⟨k, w, hk, _, hi, e, ew⟩ := mem_literal.1 h1
        subst e
        have := nm_colon hn
        rw [this] at hn
        rw [(norm_other (not_date hn) D w).1] at ew
        rw [this, ← ew]; exact ⟨hk, hi⟩
      · rw [h1] at hn; exact absurd hn (by decide)
    have hsent : ∀ n v, (n, v) ∈ h → n.head? = some 58 → n ≠ b!":host" → n ∉ ignoreHdrs → (n, v) ∈ T := by
      intro n v hv hn hh hi
      refine (hTmem n v).2 (.inl (mem_literal.2 ⟨n, v, hv, ?_, hi, if_pos hn, (norm_other (not_date hn) D v).1⟩))
      intro hR'
      rcases (hok n hR').1 with h1 | h1
      · exact h1 hn
      · exact hh h1
    exact {
      wf := perm_wf (hord T) hTwf
      kind := by
        rw [hkeys, ← hm.kind]
        constructor
        · intro hc
          obtain ⟨⟨n, v⟩, hx, hn⟩ := List.mem_map.1 hc
          dsimp only at hn
          subst hn
          exact mem_keys (hcol _ rfl v hx).1
        · intro hc
          obtain ⟨⟨n, v⟩, hx, hn⟩ := List.mem_map.1 hc
          dsimp only at hn
          subst hn
          exact mem_keys (hsent _ v hx rfl (by decide) (by decide))
      names := by
        intro n v hv _
        rcases (hTmem n v).1 ((hord T).mem_iff.1 hv) with h1 | ⟨_, h1, _⟩
        · obtain ⟨k, w, hk, _, _, rfl, _⟩ := mem_literal.1 h1
          exact nm_name (hm.names k (mem_keys hk))
        · rw [h1]; exact ⟨by decide, by decide, by decide, .inl (by decide)⟩
      values := by
        intro n v hv htop
        rcases (hTmem n v).1 ((hord T).mem_iff.1 hv) with h1 | ⟨_, _, h2⟩
        · obtain ⟨k, w, hk, _, hi, rfl, rfl⟩ := mem_literal.1 h1
          refine sendValue_value hD (hm.values k w hk (fun hc => htop ?_) hi)
          have hhead : k.head? = some 58 := by
            unfold topNames at hc
            split at hc <;> simp only [List.mem_cons, List.not_mem_nil, or_false] at hc <;>
              rcases hc with rfl | rfl | rfl <;> rfl
          have : nm k = k := if_pos hhead
          rw [this]; exact hc
        · rw [h2]
          refine value_of_plain isWs_blank (join_plain (by decide) _ ?_)
          intro x hx c hc
          obtain ⟨k, hk, rfl⟩ := List.mem_map.1 hx
          exact (hrefs k hk).1.2 c hc
      method := by
        intro v hq hv
        exact hm.method v hq (hcol _ rfl v ((hord T).mem_iff.1 hv)).1
      path := by
        intro hq
        obtain ⟨v, hv, hw⟩ := hm.path hq
        exact ⟨v, (hord T).mem_iff.2 (hsent _ v hv rfl (by decide) (by decide)), hw⟩
      status := by
        intro hq
        obtain ⟨v, hv, hw⟩ := hm.status hq
        exact ⟨v, (hord T).mem_iff.2 (hsent _ v hv rfl (by decide) (by decide)), hw⟩
      version := by
        intro v hv
        exact absurd (hcol _ rfl v ((hord T).mem_iff.1 hv)).2 (by decide)
      text := by
        intro v _ hv
        exact absurd (hcol _ rfl v ((hord T).mem_iff.1 hv)).2 (by decide)
      noHost := by
        intro _ hc
        exact hTh ((hkeys _).1 hc)
      noPseudoHost := by
        intro hq hc
        obtain ⟨⟨n, v⟩, hx, hn⟩ := List.mem_map.1 ((hkeys _).1 hc)
        dsimp only at hn
        subst hn
        exact hm.noPseudoHost hq (mem_keys (hcol _ rfl v hx).1) }
  · intro n v
    rw [hTmem, mem_literal]

theorem decompress_spec {D : Option Dates} {st : Simple} {h : Dict Str Str} (hm : SimpleMsg st.isRequest h) (hinv : Inv D st)
    (ord : Dict Str Str → Dict Str Str) (hord : ∀ d, (ord d).Perm d) {R : List Str} {T : Dict Str Str} {c : Str}
    (hR : ∀ k ∈ R, RefOk st h k) (hTwf : T.WF) (hmsg : Message lower isWs st.isRequest b!"h" (ord T))
    (hTmem : ∀ n v, (n, v) ∈ T ↔ (∃ k w, (k, w) ∈ h ∧ k ∉ R ∧ k ∉ ignoreHdrs ∧ nm k = n ∧ sendValue D k w = v) ∨
        (R ≠ [] ∧ n = b!"ref" ∧ v = joinWith [44] (R.map fun k => nm (slot k))))
    (hc : stripBy isWs (if st.seven then sevenDecode c else c) = stripBy isWs (formatHttp1 simpleFmt (ord T))) :
    ∃ st' out, simpleDecompress D ord { st with lastC := some h } c = .ok (st', out) ∧ Same (normAll D h) out ∧
      Inv D st' ∧ st'.isRequest = st.isRequest ∧ st'.seven = st.seven := by
  let h' := normAll D h
  have hkey' : ∀ {k v}, (k, v) ∈ h' → k ∈ h.keys := by
    intro k v hv
    rw [← keys_normAll D h]; exact mem_keys hv
  have hwf' : h'.WF := wf_normAll hm.wf
  obtain ⟨out1, hp, hwf1, hget1⟩ := round_trip isWs_blank simple_good hmsg
  have hpget : ∀ n, (ord T).get? n = T.get? n := perm_get? (hord T) hTwf
  have hTnone : ∀ n ∈ ignoreHdrs, T.get? n = none := by
    intro n hn
    rw [Dict.get?_none]
    intro hk
    obtain ⟨⟨n', v⟩, hx, hn'⟩ := List.mem_map.1 hk
    dsimp only at hn'
    subst hn'
    have hcolon : n'.head? = some 58 := by
      simp only [ignoreHdrs, List.mem_cons, List.not_mem_nil, or_false] at hn
      rcases hn with rfl | rfl <;> rfl
    rcases (hTmem n' v).1 hx with ⟨k, _, _, _, hi, e, _⟩ | ⟨_, e, _⟩
    · subst e
      rw [nm_colon hcolon] at hn; exact hi hn
    · rw [e] at hn; exact absurd hn (by decide)
  have hout1 : ∀ n v, out1.get? n = some v → n ∈ ignoreHdrs ∨ (n ∉ ignoreHdrs ∧ (n, v) ∈ T) := by
    intro n v hv
    rw [hget1] at hv
    by_cases hi : n ∈ ignoreHdrs
    · exact .inl hi
    · refine .inr ⟨hi, ?_⟩
      simp only [ignoreHdrs, List.mem_cons, List.not_mem_nil, or_false, not_or] at hi
      rw [if_neg hi.2, if_neg (fun hx => hi.1 hx.2), hpget] at hv
      exact (get?_some_iff hTwf).1 hv
  have hout1' : ∀ n v, n ∉ ignoreHdrs → (n, v) ∈ T → out1.get? n = some v := by
    intro n v hi hv
    simp only [ignoreHdrs, List.mem_cons, List.not_mem_nil, or_false, not_or] at hi
    rw [hget1, if_neg hi.2, if_neg (fun hx => hi.1 hx.2), hpget]
    exact (get?_some_iff hTwf).2 hv
  have hexp : ∀ n v, out1.get? n = some v → (n ∈ ignoreHdrs ∧ expandName n = .ok (some n)) ∨
      (n = b!"ref" ∧ expandName n = .ok none) ∨
      (∃ k, (k, expandValue D n (slot k) v) ∈ h' ∧ k ∉ R ∧ k ∉ ignoreHdrs ∧ nm k = n ∧ expandName n = .ok (some (slot k))) := by
    intro n v hv
    rcases hout1 n v hv with hi | ⟨hi, hT⟩
    · left
      refine ⟨hi, ?_⟩
      simp only [ignoreHdrs, List.mem_cons, List.not_mem_nil, or_false] at hi
      rcases hi with rfl | rfl <;> decide +kernel
    · right
      rcases (hTmem n v).1 hT with ⟨k, w, h1, h2, h3, h4, h5⟩ | ⟨_, e, _⟩
      · right
        refine ⟨k, mem_normAll.2 ⟨w, h1, ?_⟩, h2, h3, h4, by rw [← h4]; exact expandName_nm k⟩
        rw [← h4, ← h5, expandValue_nm]
      · left; subst e; exact ⟨rfl, by decide +kernel⟩
  have hord1 := hord out1
  have hwfo : (ord out1).WF := perm_wf hord1 hwf1
  have hmo : ∀ kv, kv ∈ ord out1 → out1.get? kv.1 = some kv.2 := fun kv hkv => (get?_some_iff hwf1).2 (hord1.mem_iff.1 hkv)
  have slot_ign : ∀ k, k ∈ h.keys → slot k ∈ ignoreHdrs → k ∈ ignoreHdrs := by
    intro k hk hs
    unfold slot at hs
    split at hs
    · exact absurd hs (by decide)
    · exact hs
  obtain ⟨out2, he, hwf2, hget2⟩ := expandLoop_spec D (ord out1) [] Dict.wf_nil hwfo
    (by
      intro kv hkv
      rcases hexp _ _ (hmo kv hkv) with ⟨_, e⟩ | ⟨_, e⟩ | ⟨k, _, _, _, _, e⟩
      · exact ⟨_, e⟩
      · exact ⟨_, e⟩
      · exact ⟨_, e⟩)
    (by
      intro a ha b hb m ea eb
      rcases hexp _ _ (hmo a ha) with ⟨ia, e⟩ | ⟨_, e⟩ | ⟨k, hk, _, ik, hn, e⟩
      · rw [e] at ea
        rcases hexp _ _ (hmo b hb) with ⟨ib, e'⟩ | ⟨_, e'⟩ | ⟨k', hk', _, ik', hn', e'⟩
        · rw [e'] at eb; simp only [Except.ok.injEq, Option.some.injEq] at ea eb; rw [ea, eb]
        · rw [e'] at eb; simp at eb
        · rw [e'] at eb
          simp only [Except.ok.injEq, Option.some.injEq] at ea eb
          rw [ea, ← eb] at ia
          exact absurd (slot_ign k' (hkey' hk') ia) ik'
      · rw [e] at ea; simp at ea
      · rw [e] at ea
        rcases hexp _ _ (hmo b hb) with ⟨ib, e'⟩ | ⟨_, e'⟩ | ⟨k', hk', _, ik', hn', e'⟩
        · rw [e'] at eb
          simp only [Except.ok.injEq, Option.some.injEq] at ea eb
          rw [eb, ← ea] at ib
          exact absurd (slot_ign k (hkey' hk) ib) ik
        · rw [e'] at eb; simp at eb
        · rw [e'] at eb
          simp only [Except.ok.injEq, Option.some.injEq] at ea eb
          have := slot_inj (msg_not_h hm (hkey' hk)) (msg_not_h hm (hkey' hk')) (ea.trans eb.symm)
          rw [← hn, ← hn', this])
  have hget2' : ∀ m v, m ∉ ignoreHdrs → (out2.get? m = some v ↔ ∃ k, (k, v) ∈ h' ∧ k ∉ R ∧ k ∉ ignoreHdrs ∧ slot k = m) := by
    intro m v hmi
    rw [hget2]
    simp only [Dict.get?, reduceCtorEq, and_false, or_false]
    constructor
    · rintro ⟨n, w, hn, e, ew⟩
      rcases hexp _ _ (hmo _ hn) with ⟨i, e'⟩ | ⟨_, e'⟩ | ⟨k, hk, hkR, ik, hn', e'⟩
      · rw [e'] at e; simp only [Except.ok.injEq, Option.some.injEq] at e; dsimp only at i; rw [e] at i; exact absurd i hmi
      · rw [e'] at e; simp at e
      · rw [e'] at e; simp only [Except.ok.injEq, Option.some.injEq] at e
        dsimp only at hk
        rw [e, ew] at hk
        exact ⟨k, hk, hkR, ik, e⟩
    · rintro ⟨k, hk, hkR, ik, rfl⟩
      obtain ⟨w, hw, rfl⟩ := mem_normAll.1 hk
      refine ⟨nm k, sendValue D k w, ?_, expandName_nm k, expandValue_nm D k w⟩
      have hni : nm k ∉ ignoreHdrs := by
        intro hc'
        have hhead : (nm k).head? = some 58 := by
          simp only [ignoreHdrs, List.mem_cons, List.not_mem_nil, or_false] at hc'
          rcases hc' with hc' | hc' <;> rw [hc'] <;> rfl
        rw [nm_colon hhead] at hc'; exact ik hc'
      exact hord1.mem_iff.2 ((get?_some_iff hwf1).1 (hout1' _ _ hni ((hTmem _ _).2 (.inl ⟨k, w, hw, hkR, ik, rfl, rfl⟩))))
  -- the references
  have hlast : ∀ k ∈ R, ∃ v d, (k, v) ∈ h' ∧ st.lastD = some d ∧ d.get? (slot k) = some v := by
    intro k hk
    obtain ⟨h1, v, hv, ht, hg⟩ := hR k hk
    obtain ⟨p, d, hp', hd, hi1, hi2⟩ := hinv ht
    rw [hp'] at hg
    simp only [Option.getD_some] at hg
    refine ⟨normValue D k v, d, mem_normAll.2 ⟨v, hv, rfl⟩, hd, ?_⟩
    by_cases hh : k = b!":host"
    · subst hh
      have hq : st.isRequest = true := by
        cases hq : st.isRequest with
        | true => rfl
        | false => exact absurd (mem_keys hv) (hm.noPseudoHost hq)
      rw [(norm_other (by decide) D v).2]
      exact (hi2 hq).trans hg
    · have : slot k = k := if_neg hh
      rw [this]
      rcases h1 with h1 | h1
      · rw [hi1 k h1 (msg_not_h hm (mem_keys hv)), hg]; rfl
      · exact absurd h1 hh
  have hres : ∃ out3, resolveRefs st.lastD out1 out2 = .ok out3 ∧ out3.WF ∧
      ∀ m, m ∉ ignoreHdrs → ∀ v, (out3.get? m = some v ↔ ∃ k, (k, v) ∈ h' ∧ k ∉ ignoreHdrs ∧ slot k = m) := by
    have hrefv : ∀ v, out1.get? b!"ref" = some v ↔ R ≠ [] ∧ v = joinWith [44] (R.map fun k => nm (slot k)) := by
      intro v
      constructor
      · intro hv
        rcases hout1 _ _ hv with hi | ⟨_, hT⟩
        · exact absurd hi (by decide)
        · rcases (hTmem _ _).1 hT with ⟨k, _, _, _, _, e, _⟩ | ⟨h1, _, h2⟩
          · exact absurd e (nm_ne_ref k)
          · exact ⟨h1, h2⟩
      · rintro ⟨h1, h2⟩
        exact hout1' _ _ (by decide) ((hTmem _ _).2 (.inr ⟨h1, rfl, h2⟩))
    unfold resolveRefs
    cases hrg : out1.get? b!"ref" with
    | none =>
      have hR0 : R = [] := by
        by_contra hR0
        have := (hrefv _).2 ⟨hR0, rfl⟩
        rw [hrg] at this; simp at this
      refine ⟨out2, rfl, hwf2, fun m hmi v => ?_⟩
      rw [hget2' m v hmi, hR0]
      simp
    | some rv =>
      obtain ⟨hR0, hrv⟩ := (hrefv rv).1 hrg
      obtain ⟨k0, hk0⟩ := List.exists_mem_of_ne_nil R hR0
      obtain ⟨v0, d, _, hd, hdk⟩ := hlast k0 hk0
      have htd : truthy st.lastD = true := by
        rw [hd]
        cases d with
        | nil => simp [Dict.get?] at hdk
        | cons x xs => rfl
      dsimp only
      rw [if_pos htd, hd, hrv]
      have hno : ∀ x ∈ (R.map fun k => nm (slot k)), 44 ∉ x := by
        intro x hx
        obtain ⟨k, hk, rfl⟩ := List.mem_map.1 hx
        obtain ⟨h1, v, hv, _⟩ := hR k hk
        by_cases hh : k = b!":host"
        · subst hh
          have : nm (slot b!":host") = b!"!h" := by decide +kernel
          rw [this]; decide
        · have hslot : slot k = k := if_neg hh
          rw [hslot]
          rcases h1 with h1 | h1
          · have := hm.plain k (mem_keys hv) h1
            exact (nm_word h1 this.1 this.2.1).2
          · exact absurd h1 hh
      rw [splitOn_joinWith (by simpa using hR0) hno]
      obtain ⟨out3, h1, h2, h3⟩ := refLoop_spec d (R.map fun k => nm (slot k)) (R.map slot) (by
        rw [List.forall₂_map_left_iff, List.forall₂_map_right_iff, List.forall₂_same]
        intro k hk
        obtain ⟨v, d', hv, hd', hg⟩ := hlast k hk
        have hdd : d' = d := by rw [hd] at hd'; simpa using hd'.symm
        rw [hdd] at hg
        refine ⟨refName_nm ?_, mem_keys ((Dict.get?_mem hg))⟩
        unfold slot
        split
        · decide
        · rename_i hh
          rcases (hR k hk).1 with h1 | h1
          · exact h1
          · exact absurd h1 hh) out2 hwf2
      refine ⟨out3, h1, h2, fun m hmi v => ?_⟩
      rw [h3]
      by_cases hmR : m ∈ R.map slot
      · rw [if_pos hmR]
        obtain ⟨k, hk, rfl⟩ := List.mem_map.1 hmR
        obtain ⟨v', d', hv', hd', hg⟩ := hlast k hk
        have hdd : d' = d := by rw [hd] at hd'; simpa using hd'.symm
        rw [hdd] at hg
        rw [hg]
        constructor
        · intro e
          cases e
          exact ⟨k, hv', fun hi => hmi (by
            unfold slot
            split
            · rename_i hh; rw [hh] at hi; exact absurd hi (by decide)
            · exact hi), rfl⟩
        · rintro ⟨k', hk', _, e⟩
          have := slot_inj (msg_not_h hm (hkey' hk')) (msg_not_h hm (hkey' hv')) e
          subst this
          have h1 := mem_get? hwf' hk'
          have h2 := mem_get? hwf' hv'
          rw [h1] at h2; exact h2.symm
      · rw [if_neg hmR, hget2' m v hmi]
        constructor
        · rintro ⟨k, a, _, b, e⟩; exact ⟨k, a, b, e⟩
        · rintro ⟨k, a, b, e⟩
          exact ⟨k, a, fun hkR => hmR (List.mem_map.2 ⟨k, hkR, e⟩), b, e⟩
  obtain ⟨out3, hres3, hwf3, hget3⟩ := hres
  have hh3 : out3.get? b!"h" = h'.get? b!":host" := by
    apply Option.ext
    intro v
    rw [hget3 _ (by decide), get?_some_iff hwf']
    constructor
    · rintro ⟨k, hk, _, e⟩
      by_cases hh : k = b!":host"
      · rw [← hh]; exact hk
      · rw [slot, if_neg hh] at e; exact absurd e (msg_not_h hm (hkey' hk))
    · intro hv; exact ⟨_, hv, by decide, if_pos rfl⟩
  have hhost3 : out3.get? b!":host" = none := by
    cases hg : out3.get? b!":host" with
    | none => rfl
    | some v =>
      obtain ⟨k, _, _, e⟩ := (hget3 _ (by decide) v).1 hg
      unfold slot at e
      split at e
      · exact absurd e (by decide)
      · rename_i hh; exact absurd e hh
  have hn3 : ∀ n, n ∉ ignoreHdrs → n ≠ b!":host" → n ≠ b!"h" → out3.get? n = h'.get? n := by
    intro n hi hh hh'
    apply Option.ext
    intro v
    rw [hget3 _ hi, get?_some_iff hwf']
    constructor
    · rintro ⟨k, hk, _, e⟩
      unfold slot at e
      split at e
      · exact absurd e.symm hh'
      · rw [← e]; exact hk
    · intro hv; exact ⟨n, hv, hi, if_neg hh⟩
  have hh_none : h'.get? b!"h" = none := Dict.get?_none.2 fun hc => msg_not_h hm (by rw [← keys_normAll D h]; exact hc) rfl
  refine ⟨{ st with lastC := some h, lastD := some out3 }, moveHost out3, ?_, ?_, ?_, rfl, rfl⟩
  · unfold simpleDecompress
    have : parseHttp1 lower isWs (if st.seven then sevenDecode c else c) st.isRequest b!"h" = .ok out1 := by
      rw [← hp]
      unfold parseHttp1
      rw [hc]
      rfl
    simp only [this, he, hres3, bind, Except.bind, pure, Except.pure]
  · unfold moveHost
    cases hg : out3.get? b!"h" with
    | none =>
      refine ⟨hwf3, fun n hi => ?_⟩
      dsimp only
      by_cases h1 : n = b!":host"
      · rw [h1, hhost3, ← hh3, hg]
      · by_cases h2 : n = b!"h"
        · rw [h2, hg, hh_none]
        · exact hn3 n hi h1 h2
    | some v =>
      refine ⟨(hwf3.set _ _).del _, fun n hi => ?_⟩
      dsimp only
      rw [get?_del' (hwf3.set _ _), get?_set']
      by_cases h2 : n = b!"h"
      · rw [if_pos h2, h2, hh_none]
      · rw [if_neg h2]
        by_cases h1 : n = b!":host"
        · rw [if_pos h1, h1, ← hh3, hg]
        · rw [if_neg h1]; exact hn3 n hi h1 h2
  · intro _
    refine ⟨h, out3, rfl, rfl, ?_, fun _ => ?_⟩
    rotate_left
    · rw [hh3, get?_normAll]
      cases h.get? b!":host" with
      | none => rfl
      | some v => exact congrArg some (norm_other (by decide) D v).2
    intro k hk hkh
    rw [← get?_normAll]
    refine hn3 k ?_ ?_ hkh
    · intro hi
      simp only [ignoreHdrs, List.mem_cons, List.not_mem_nil, or_false] at hi
      rcases hi with rfl | rfl <;> exact hk rfl
    · rintro rfl; exact hk rfl

end Verif.Text
