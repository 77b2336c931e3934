import Verif.Text.Lemmas
import Mathlib.Data.List.Nodup
import Mathlib.Data.List.Induction
/-
parse_http1 undoes format_http1.
-/
namespace Verif.Text
open Verif Spec

/-- compressor/__init__.py 70-71: the name in the header line. -/
def rename (host k : Str) : Str := if k = b!":host" then host else k

/-- The headers written as header lines. -/
def lineHeaders (host : Str) (avoid : List Str) (h : Dict Str Str) : Dict Str Str :=
  (h.filter fun kv => decide (kv.1 ∉ avoid)).map fun kv => (rename host kv.1, kv.2)

theorem mem_lineHeaders {host : Str} {avoid : List Str} {h : Dict Str Str} {n v : Str} :
    (n, v) ∈ lineHeaders host avoid h ↔ ∃ k, (k, v) ∈ h ∧ k ∉ avoid ∧ rename host k = n := by
  simp only [lineHeaders, List.mem_map, List.mem_filter, decide_eq_true_eq, Prod.mk.injEq]
  constructor
  · rintro ⟨⟨k, v'⟩, ⟨h1, h2⟩, h3, rfl⟩; exact ⟨k, h1, h2, h3⟩
  · rintro ⟨k, h1, h2, h3⟩; exact ⟨(k, v), ⟨h1, h2⟩, h3, rfl⟩

theorem wf_lineHeaders {host : Str} {avoid : List Str} {h : Dict Str Str} (hwf : h.WF)
    (hh : host ∉ h.keys ∨ b!":host" ∉ h.keys) : (lineHeaders host avoid h).WF := by
  unfold Dict.WF Dict.keys lineHeaders
  rw [List.map_map]
  have e : ((fun kv : Str × Str => kv.1) ∘ fun kv : Str × Str => (rename host kv.1, kv.2)) = rename host ∘ Prod.fst := rfl
  rw [e, ← List.map_map]
  refine List.Nodup.map_on ?_ ((List.Nodup.sublist (List.filter_sublist.map _) hwf))
  intro a ha b hb hab
  have ha' : a ∈ h.keys := (List.filter_sublist.map _).subset ha
  have hb' : b ∈ h.keys := (List.filter_sublist.map _).subset hb
  unfold rename at hab
  by_cases h1 : a = b!":host" <;> by_cases h2 : b = b!":host"
  · rw [h1, h2]
  · rw [if_pos h1, if_neg h2] at hab
    rcases hh with hh | hh
    · exact absurd (hab ▸ hb') hh
    · exact absurd (h1 ▸ ha') hh
  · rw [if_neg h1, if_pos h2] at hab
    rcases hh with hh | hh
    · exact absurd (hab ▸ ha') hh
    · exact absurd (h2 ▸ hb') hh
  · rwa [if_neg h1, if_neg h2] at hab

/-- The header lines without line ends. -/
def theLines (sp : Str) (kvs : List (Str × Str)) : List Str := (pieces kvs).map fun kv => kv.1 ++ 58 :: (sp ++ kv.2)

theorem format_lines {f : Fmt} {sp : Str} (hs : f.valsep = 58 :: sp) (avoid : List Str) (h : Dict Str Str) :
    h.flatMap (headerLines f avoid) = (theLines sp (lineHeaders f.host avoid h)).flatMap (fun x => x ++ f.delimiter) := by
  induction h with
  | nil => rfl
  | cons kv h ih =>
    rw [List.flatMap_cons, ih]
    by_cases hk : kv.1 ∈ avoid
    · have : lineHeaders f.host avoid (kv :: h) = lineHeaders f.host avoid h := by
        unfold lineHeaders; rw [List.filter_cons, if_neg (by simp [hk])]
      rw [this, headerLines, if_pos hk, List.nil_append]
    · have : lineHeaders f.host avoid (kv :: h) = (rename f.host kv.1, kv.2) :: lineHeaders f.host avoid h := by
        unfold lineHeaders; rw [List.filter_cons, if_pos (by simp [hk])]; rfl
      rw [this, headerLines, if_neg hk]
      unfold theLines pieces
      rw [List.flatMap_cons, List.map_append, List.flatMap_append]
      congr 1
      simp only [List.flatMap_map, List.map_map]
      refine List.flatMap_congr fun v _ => ?_
      simp [rename, hs]

/-- The pieces of a value are trimmed and fit on one line. -/
theorem value_pieces {ws : Nat → Bool} {v : Str} (hv : Value ws v) : ∀ p ∈ splitOn 0 v, Trimmed ws p ∧ 10 ∉ p := by
  intro p hp
  obtain ⟨h0, a, b, rfl, ha, hb⟩ := Lib.mem_splitOn.1 hp
  refine ⟨hv.trimmed a p b rfl ha hb h0, fun hc => hv.oneLine (by simp [hc])⟩

theorem parse_body {lower : Str → Str} {ws : Nat → Bool} (hws : Blank ws) {r sp : Str} (hr : ∀ c ∈ r, ws c = true)
    (hr10 : 10 ∉ r) (hsp : ∀ c ∈ sp, ws c = true) (hsp10 : 10 ∉ sp) (top : Str) (htop : top ≠ [])
    (htr : Trimmed ws top) (ht10 : 10 ∉ top) (kvs : Dict Str Str) (hwf : kvs.WF)
    (hn : ∀ k v, (k, v) ∈ kvs → Name lower k) (hv : ∀ k v, (k, v) ∈ kvs → Value ws v) :
    ∃ w rest, (∀ c ∈ w, ws c = true) ∧
      splitOn 10 (stripBy ws (top ++ (r ++ [10]) ++ (theLines sp kvs).flatMap (fun x => x ++ (r ++ [10])) ++ (r ++ [10]))) =
        (top ++ w) :: rest ∧ parseLines lower ws rest [] = .ok kvs := by
  have hps : ∀ kv ∈ pieces kvs, Name lower kv.1 ∧ Trimmed ws kv.2 ∧ 10 ∉ kv.2 := by
    intro kv hkv
    simp only [pieces, List.mem_flatMap, List.mem_map] at hkv
    obtain ⟨kv', h1, p, hp, rfl⟩ := hkv
    exact ⟨hn _ _ h1, value_pieces (hv _ _ h1) p hp⟩
  have hfold : (pieces kvs).foldl (fun o kv => addPiece o kv.1 kv.2) [] = kvs := by
    have := addAll kvs [] hwf
    simpa using this
  have ht58 : ws 58 = false := hws.visible 58 (by decide) (by decide)
  cases hpc : pieces kvs using List.reverseRecOn with
  | nil =>
    refine ⟨[], [], by simp, ?_, ?_⟩
    · have := split_message hws.lf hr hr10 [] top top [] (by simp) (by simp) htr.2 htop (by simpa using ht10)
        (by simpa using htr.1) (by simpa using htop)
      simpa [theLines, hpc] using this
    · rw [hpc] at hfold
      simp only [List.foldl_nil] at hfold
      rw [← hfold]; rfl
  | append_singleton init last _ =>
    have hlast := hps last (by rw [hpc]; simp)
    have hx : ∃ x w, last.1 ++ 58 :: (sp ++ last.2) = x ++ w ∧ (∀ c ∈ w, ws c = true) ∧
        (∀ c, x.getLast? = some c → ws c = false) ∧ x ≠ [] ∧ LineFor ws last x := by
      by_cases he : last.2 = []
      · refine ⟨last.1 ++ [58], sp, by simp [he], hsp, ?_, by simp, [], [], by simp, by simp, by simp [he]⟩
        intro c hc
        simp only [List.getLast?_append, List.getLast?_singleton, Option.some_or, Option.some.injEq] at hc
        rw [← hc]; exact ht58
      · refine ⟨last.1 ++ 58 :: (sp ++ last.2), [], by simp, by simp, ?_, by simp, sp, [], hsp, by simp, by simp⟩
        intro c hc
        refine hlast.2.1.2 c ?_
        rw [List.getLast?_append, List.getLast?_cons, List.getLast?_append] at hc
        cases hl : last.2.getLast? with
        | none => exact absurd (List.getLast?_eq_none_iff.1 hl) he
        | some y => rw [hl] at hc; simpa using hc
    obtain ⟨x, w, hxw, hw, hxl, hxne, hline⟩ := hx
    have hsplit := split_message hws.lf hr hr10 (top :: init.map fun kv => kv.1 ++ 58 :: (sp ++ kv.2))
      (last.1 ++ 58 :: (sp ++ last.2)) x w hxw hw hxl hxne
      (by
        intro y hy
        simp only [List.cons_append, List.mem_cons, List.mem_append, List.mem_map, List.not_mem_nil, or_false] at hy
        have key : ∀ kv ∈ pieces kvs, 10 ∉ kv.1 ++ 58 :: (sp ++ kv.2) := by
          intro kv hkv
          have := hps kv hkv
          simp [this.1.oneLine, this.2.2, hsp10]
        rcases hy with rfl | ⟨kv, hkv, rfl⟩ | rfl
        · exact ht10
        · exact key kv (by rw [hpc]; simp [hkv])
        · exact key last (by rw [hpc]; simp))
      (by simpa using htr.1) (by simpa using htop)
    refine ⟨r, (init.map fun kv => (kv.1 ++ 58 :: (sp ++ kv.2)) ++ r) ++ [x], hr, ?_, ?_⟩
    · have e : top ++ (r ++ [10]) ++ (theLines sp kvs).flatMap (fun x => x ++ (r ++ [10])) =
          (top :: (init.map fun kv => kv.1 ++ 58 :: (sp ++ kv.2)) ++ [last.1 ++ 58 :: (sp ++ last.2)]).flatMap
            (fun x => x ++ (r ++ [10])) := by
        simp [theLines, hpc]
      rw [e, hsplit]
      simp
    · rw [parseLines_spec (lower := lower) (kvs := pieces kvs), hfold]
      · rw [hpc]
        refine List.rel_append ?_ (.cons hline .nil)
        rw [List.forall₂_map_right_iff, List.forall₂_same]
        intro kv _
        exact ⟨sp, r, hsp, hr, by simp⟩
      · exact fun kv hkv => (hps kv hkv).1
      · exact fun kv hkv => (hps kv hkv).2.1

theorem get?_some_iff {d : Dict Str Str} (hd : d.WF) {k v : Str} : d.get? k = some v ↔ (k, v) ∈ d :=
  (Dict.mem_iff_get? hd).symm

theorem get?_set' (d : Dict Str Str) (k v n : Str) : (d.set k v).get? n = if n = k then some v else d.get? n := by
  rw [Dict.get?_set]
  by_cases h : n = k
  · rw [if_pos h, if_pos h.symm]
  · rw [if_neg h, if_neg (fun hc => h hc.symm)]

theorem get?_del' {d : Dict Str Str} (hd : d.WF) (k n : Str) : (d.del k).get? n = if n = k then none else d.get? n := by
  rw [Dict.get?_del hd]
  by_cases h : n = k
  · rw [if_pos h, if_pos h.symm]
  · rw [if_neg h, if_neg (fun hc => h hc.symm)]

theorem keys_get? {d : Dict Str Str} {k : Str} (h : k ∈ d.keys) : ∃ v, d.get? k = some v := by
  cases hg : d.get? k with
  | none => exact absurd h (Dict.get?_none.1 hg)
  | some v => exact ⟨v, rfl⟩

theorem trimmed_three {ws : Nat → Bool} {a b c : Str} (ha : Word ws a) (hc : c ≠ []) (hct : Trimmed ws c) :
    Trimmed ws (a ++ [32] ++ b ++ [32] ++ c) := by
  refine ⟨?_, ?_⟩
  · intro x hx
    obtain ⟨hne, h⟩ := ha
    cases a with
    | nil => exact absurd rfl hne
    | cons y ys => simp only [List.cons_append, List.head?_cons, Option.some.injEq] at hx; exact h x (by simp [hx])
  · intro x hx
    refine hct.2 x ?_
    rw [List.getLast?_append] at hx
    cases hl : c.getLast? with
    | none => exact absurd (List.getLast?_eq_none_iff.1 hl) hc
    | some y => rw [hl] at hx; simpa using hx

theorem word_trimmed {ws : Nat → Bool} {a : Str} (h : Word ws a) : Trimmed ws a :=
  ⟨fun c hc => h.2 c (List.mem_of_mem_head? hc), fun c hc => h.2 c (List.mem_of_getLast? hc)⟩

theorem word_no10 {ws : Nat → Bool} (hws : Blank ws) {a : Str} (h : Word ws a) : 10 ∉ a := by
  intro hc
  have := h.2 10 hc
  rw [hws.lf] at this
  exact absurd this (by decide)

/-- A format whose lines the parser can take apart again. -/
structure GoodFmt (lower : Str → Str) (ws : Nat → Bool) (f : Fmt) (r sp : Str) : Prop where
  delim : f.delimiter = r ++ [10]
  rws : ∀ c ∈ r, ws c = true
  r10 : 10 ∉ r
  vsep : f.valsep = 58 :: sp
  spws : ∀ c ∈ sp, ws c = true
  sp10 : 10 ∉ sp
  hostName : Name lower f.host
  hostNoColon : 58 ∉ f.host
  ver : Word ws f.version

theorem round_trip {lower : Str → Str} {ws : Nat → Bool} (hws : Blank ws) {f : Fmt} {r sp : Str}
    (hf : GoodFmt lower ws f r sp) {isRequest : Bool} {h : Dict Str Str} (hm : Message lower ws isRequest f.host h) :
    ∃ out, parseHttp1 lower ws (formatHttp1 f h) isRequest f.host = .ok out ∧ Decoded isRequest f.version h out := by
  have hhas : h.has b!":method" = isRequest := by
    cases hq : isRequest with
    | true =>
      obtain ⟨v, hv⟩ := keys_get? (hm.kind.2 hq)
      simp [Dict.has, hv]
    | false =>
      have : b!":method" ∉ h.keys := fun hc => by rw [hm.kind.1 hc] at hq; exact absurd hq (by decide)
      simp [Dict.has, Dict.get?_none.2 this]
  have havoid : avoidList h = topNames isRequest := by
    unfold avoidList topNames; rw [hhas]
  have hor : f.host ∉ h.keys ∨ b!":host" ∉ h.keys := by
    cases hq : isRequest with
    | true => exact .inl (hm.noHost hq)
    | false => exact .inr (hm.noPseudoHost hq)
  have hwf := wf_lineHeaders (avoid := topNames isRequest) hm.wf hor
  have hnames : ∀ k v, (k, v) ∈ lineHeaders f.host (topNames isRequest) h → Name lower k := by
    intro k v hkv
    obtain ⟨k', h1, h2, rfl⟩ := mem_lineHeaders.1 hkv
    unfold rename
    split
    · exact hf.hostName
    · exact hm.names _ _ h1 h2
  have hvals : ∀ k v, (k, v) ∈ lineHeaders f.host (topNames isRequest) h → Value ws v := by
    intro k v hkv
    obtain ⟨k', h1, h2, rfl⟩ := mem_lineHeaders.1 hkv
    exact hm.values _ _ h1 h2
  have hg : ∀ n v, (lineHeaders f.host (topNames isRequest) h).get? n = some v ↔
      ∃ k, h.get? k = some v ∧ k ∉ topNames isRequest ∧ rename f.host k = n := by
    intro n v
    rw [get?_some_iff hwf, mem_lineHeaders]
    simp only [get?_some_iff hm.wf]
  have body := fun top h1 h2 h3 => parse_body (lower := lower) hws hf.rws hf.r10 hf.spws hf.sp10 top h1 h2 h3
    _ hwf hnames hvals
  have hform : formatHttp1 f h = topLine f h ++ (r ++ [10]) ++
      (theLines sp (lineHeaders f.host (topNames isRequest) h)).flatMap (fun x => x ++ (r ++ [10])) ++ (r ++ [10]) := by
    unfold formatHttp1
    rw [havoid, format_lines hf.vsep, hf.delim]
  have hcolon : ∀ x : Str, f.host ≠ 58 :: x := fun x hx => hf.hostNoColon (by rw [hx]; simp)
  generalize hD : lineHeaders f.host (topNames isRequest) h = D at *
  unfold parseHttp1
  rw [hform]
  cases hq : isRequest with
  | true =>
    obtain ⟨m, hmget⟩ := keys_get? (hm.kind.2 hq)
    have hmw := hm.method m hq ((get?_some_iff hm.wf).1 hmget)
    obtain ⟨p, hp, hpw⟩ := hm.path hq
    have hpget := (get?_some_iff hm.wf).2 hp
    have hver : (getD h b!":version" f.version) ≠ [] ∧ 10 ∉ (getD h b!":version" f.version) ∧
        Trimmed ws (getD h b!":version" f.version) := by
      unfold getD
      cases hv : h.get? b!":version" with
      | none => exact ⟨hf.ver.1, word_no10 hws hf.ver, word_trimmed hf.ver⟩
      | some v =>
        have := hm.version v ((get?_some_iff hm.wf).1 hv)
        rw [if_pos hq] at this
        exact this
    have htop : topLine f h = m ++ [32] ++ p ++ [32] ++ getD h b!":version" f.version := by
      unfold topLine
      rw [hhas, if_pos hq]
      simp only [getD, hmget, hpget, Option.getD_some]
    obtain ⟨w, rest, hw, hsplit, hparse⟩ := body (topLine f h) (by rw [htop]; simp)
      (by rw [htop]; exact trimmed_three hmw hver.1 hver.2.2)
      (by rw [htop]; simp [word_no10 hws hmw, word_no10 hws hpw, hver.2.1])
    rw [hsplit]
    simp only [List.headD_cons, List.tail_cons, hparse, bind, Except.bind, if_true]
    rw [htop, splitWs2_three hws.space hmw hpw hver.1 hver.2.2.1]
    simp only [item, List.getElem?_cons_zero, List.getElem?_cons_succ]
    have hstrip : stripBy ws (getD h b!":version" f.version ++ w) = getD h b!":version" f.version := by
      have := stripBy_unique (a := []) (by simp) hw hver.2.2.1 hver.2.2.2
      simpa using this
    rw [hstrip]
    generalize hV : getD h b!":version" f.version = V at *
    have hV' : (h.get? b!":version").getD f.version = V := hV
    have hget3 : ∀ n, (((D.set b!":method" m).set b!":path" p).set b!":version" V).get? n =
        if n = b!":version" then some V else if n = b!":path" then some p else if n = b!":method" then some m
        else D.get? n := by
      intro n; rw [get?_set', get?_set', get?_set']
    have hwf3 : (((D.set b!":method" m).set b!":path" p).set b!":version" V).WF := ((hwf.set _ _).set _ _).set _ _
    have hhost3 : (((D.set b!":method" m).set b!":path" p).set b!":version" V).get? f.host = h.get? b!":host" := by
      rw [hget3, if_neg (hcolon _), if_neg (hcolon _), if_neg (hcolon _)]
      apply Option.ext
      intro v
      rw [hg]
      constructor
      · rintro ⟨k, h1, h2, h3⟩
        unfold rename at h3
        by_cases hk : k = b!":host"
        · rw [← hk]; exact h1
        · rw [if_neg hk] at h3
          have : f.host ∈ h.keys := by
            rw [← h3]; exact List.mem_map.2 ⟨(k, v), (get?_some_iff hm.wf).1 h1, rfl⟩
          exact absurd this (hm.noHost hq)
      · intro h1
        exact ⟨b!":host", h1, by rw [hq]; decide, if_pos rfl⟩
    have hrest : ∀ n, n ≠ f.host → n ≠ b!":host" →
        (((D.set b!":method" m).set b!":path" p).set b!":version" V).get? n =
        if n = b!":version" then some V else h.get? n := by
      intro n hn1 hn2
      rw [hget3]
      split
      · rfl
      · rename_i hnv
        split
        · rename_i h1; rw [h1, hpget]
        · rename_i hnp
          split
          · rename_i h1; rw [h1, hmget]
          · rename_i hnm
            apply Option.ext
            intro v
            rw [hg]
            constructor
            · rintro ⟨k, h1, h2, h3⟩
              unfold rename at h3
              by_cases hk : k = b!":host"
              · rw [if_pos hk] at h3; exact absurd h3.symm hn1
              · rw [if_neg hk] at h3; rw [← h3]; exact h1
            · intro h1
              refine ⟨n, h1, ?_, if_neg hn2⟩
              rw [hq]
              simp only [topNames, if_true, List.mem_cons, List.not_mem_nil, or_false, not_or]
              exact ⟨hnm, hnp, hnv⟩
    cases hh : h.get? b!":host" with
    | none =>
      rw [hhost3, hh]
      refine ⟨_, rfl, hwf3, fun n => ?_⟩
      rw [hV', if_neg (c := true = false ∧ _) (by simp)]
      by_cases hn1 : n = f.host
      · rw [hn1, hhost3, hh, if_neg (hcolon _), Dict.get?_none.2 (hm.noHost hq)]
      · by_cases hn2 : n = b!":host"
        · rw [hn2, hget3, if_neg (by decide), if_neg (by decide), if_neg (by decide), if_neg (by decide), hh]
          apply Option.ext
          intro v
          rw [hg]
          constructor
          · rintro ⟨k, h1, h2, h3⟩
            unfold rename at h3
            by_cases hk : k = b!":host"
            · rw [hk, hh] at h1; exact absurd h1 (by simp)
            · rw [if_neg hk] at h3; exact absurd h3 hk
          · intro h1; exact absurd h1 (by simp)
        · exact hrest n hn1 hn2
    | some hv =>
      rw [hhost3, hh]
      refine ⟨_, rfl, (hwf3.set _ _).del _, fun n => ?_⟩
      rw [hV', if_neg (c := true = false ∧ _) (by simp), get?_del' (hwf3.set _ _), get?_set']
      by_cases hn1 : n = f.host
      · rw [if_pos hn1, hn1, if_neg (hcolon _), Dict.get?_none.2 (hm.noHost hq)]
      · rw [if_neg hn1]
        by_cases hn2 : n = b!":host"
        · rw [if_pos hn2, hn2, if_neg (by decide), hh]
        · rw [if_neg hn2]; exact hrest n hn1 hn2
  | false =>
    obtain ⟨s, hs, hsw⟩ := hm.status hq
    have hsget := (get?_some_iff hm.wf).2 hs
    have hver : Word ws (getD h b!":version" f.version) := by
      unfold getD
      cases hv : h.get? b!":version" with
      | none => exact hf.ver
      | some v =>
        have := hm.version v ((get?_some_iff hm.wf).1 hv)
        rw [if_neg (by simp [hq])] at this
        exact this
    have htext : (getD h b!":status-text" b!"?") ≠ [] ∧ 10 ∉ (getD h b!":status-text" b!"?") ∧
        Trimmed ws (getD h b!":status-text" b!"?") := by
      unfold getD
      cases hv : h.get? b!":status-text" with
      | none =>
        refine ⟨by decide, by decide, word_trimmed ⟨by decide, ?_⟩⟩
        intro c hc
        have hc' : c ∈ [63] := hc
        rw [List.mem_singleton] at hc'
        rw [hc']
        exact hws.visible 63 (by decide) (by decide)
      | some v => exact hm.text v hq ((get?_some_iff hm.wf).1 hv)
    have htop : topLine f h = getD h b!":version" f.version ++ [32] ++ s ++ [32] ++ getD h b!":status-text" b!"?" := by
      unfold topLine
      rw [hhas, if_neg (by simp [hq])]
      simp only [getD, hsget, Option.getD_some]
    obtain ⟨w, rest, hw, hsplit, hparse⟩ := body (topLine f h) (by rw [htop]; simp)
      (by rw [htop]; exact trimmed_three hver htext.1 htext.2.2)
      (by rw [htop]; simp [word_no10 hws hver, word_no10 hws hsw, htext.2.1])
    rw [hsplit]
    simp only [List.headD_cons, List.tail_cons, hparse, bind, Except.bind, Bool.false_eq_true, if_false]
    rw [htop, splitWs2_three hws.space hver hsw htext.1 htext.2.2.1]
    simp only [item, List.getElem?_cons_zero, List.getElem?_cons_succ]
    have hstrip : stripBy ws (getD h b!":status-text" b!"?" ++ w) = getD h b!":status-text" b!"?" := by
      have := stripBy_unique (a := []) (by simp) hw htext.2.2.1 htext.2.2.2
      simpa using this
    rw [hstrip]
    generalize hV : getD h b!":version" f.version = V at *
    generalize hT : getD h b!":status-text" b!"?" = T at *
    have hV' : (h.get? b!":version").getD f.version = V := hV
    have hT' : (h.get? b!":status-text").getD b!"?" = T := hT
    refine ⟨_, rfl, ((hwf.set _ _).set _ _).set _ _, fun n => ?_⟩
    rw [hV', hT', get?_set', get?_set', get?_set']
    by_cases h1 : n = b!":status-text"
    · rw [if_pos h1, if_neg (by rw [h1]; decide), if_pos ⟨rfl, h1⟩]
    · rw [if_neg h1, if_neg (c := false = false ∧ _) (fun hc => h1 hc.2)]
      by_cases h2 : n = b!":status"
      · rw [if_pos h2, if_neg (by rw [h2]; decide), h2, hsget]
      · rw [if_neg h2]
        by_cases h3 : n = b!":version"
        · rw [if_pos h3, if_pos h3]
        · rw [if_neg h3, if_neg h3]
          apply Option.ext
          intro v
          rw [hg]
          constructor
          · rintro ⟨k, g1, g2, g3⟩
            unfold rename at g3
            by_cases hk : k = b!":host"
            · exact absurd (List.mem_map.2 ⟨(k, v), (get?_some_iff hm.wf).1 g1, hk⟩) (hm.noPseudoHost hq)
            · rw [if_neg hk] at g3; rw [← g3]; exact g1
          · intro g1
            refine ⟨n, g1, ?_, ?_⟩
            · rw [hq]
              simp only [topNames, Bool.false_eq_true, if_false, List.mem_cons, List.not_mem_nil, or_false, not_or]
              exact ⟨h3, h2, h1⟩
            · refine if_neg fun hk => ?_
              exact absurd (List.mem_map.2 ⟨(n, v), (get?_some_iff hm.wf).1 g1, hk⟩) (hm.noPseudoHost hq)

end Verif.Text
