import Verif.Text.SimpleStep
import Mathlib.Data.List.TakeWhile
/-
Sessions of the `simple` codec, and messages with an empty path.
-/
namespace Verif.Text
open Verif Spec

theorem split_chars {c x : Nat} {v p : Str} (h : p ∈ splitOn c v) (hx : x ∈ p) : x ∈ v := by
  obtain ⟨_, a, b, rfl, _⟩ := Lib.mem_splitOn.1 h
  simp [hx]

/-- The characters of a formatted message. -/
theorem format_ascii {f : Fmt} {h : Dict Str Str} (h1 : ∀ c ∈ f.delimiter ++ f.valsep ++ f.host ++ f.version, c < 128)
    (h2 : ∀ k v, (k, v) ∈ h → (∀ c ∈ k, c < 128) ∧ ∀ c ∈ v, c < 128) : ∀ c ∈ formatHttp1 f h, c < 128 := by
  have hget : ∀ k d, (∀ c ∈ d, c < 128) → ∀ c ∈ getD h k d, c < 128 := by
    intro k d hd
    unfold getD
    cases hg : h.get? k with
    | none => exact hd
    | some v => exact (h2 k v (Dict.get?_mem hg)).2
  have hver : ∀ c ∈ f.version, c < 128 := fun c hc => h1 c (by simp [hc])
  intro c hc
  unfold formatHttp1 at hc
  simp only [List.mem_append] at hc
  rcases hc with ((hc | hc) | hc) | hc
  · unfold topLine at hc
    split at hc <;> simp only [List.mem_append, List.mem_singleton] at hc
    · rcases hc with (((hc | hc) | hc) | hc) | hc
      · exact hget _ _ (by simp) c hc
      · omega
      · exact hget _ _ (by simp) c hc
      · omega
      · exact hget _ _ hver c hc
    · rcases hc with (((hc | hc) | hc) | hc) | hc
      · exact hget _ _ hver c hc
      · omega
      · exact hget _ _ (by simp) c hc
      · omega
      · exact hget _ _ (by simp) c hc
  · exact h1 c (by simp [hc])
  · obtain ⟨⟨k, v⟩, hkv, hc⟩ := List.mem_flatMap.1 hc
    unfold headerLines at hc
    split at hc
    · simp at hc
    · obtain ⟨p, hp, hc⟩ := List.mem_flatMap.1 hc
      simp only [List.mem_append] at hc
      rcases hc with ((hc | hc) | hc) | hc
      · split at hc
        · exact h1 c (by simp [hc])
        · exact (h2 k v hkv).1 c hc
      · exact h1 c (by simp [hc])
      · exact (h2 k v hkv).2 c (split_chars hp hc)
      · exact h1 c (by simp [hc])
  · exact h1 c (by simp [hc])

theorem seven_strip {m : Str} (hm : ∀ c ∈ m, c < 128) (hl : ∃ m', m = m' ++ [10]) :
    stripBy isWs (sevenDecode (sevenEncode m)) = stripBy isWs m := by
  rw [seven_round_trip m hm]
  split
  · obtain ⟨m', rfl⟩ := hl
    rw [List.dropLast_concat, stripBy_snoc (by decide)]
  · rfl

theorem step_spec {D : Option Dates} (hD : DatesOk D) {st : Simple} {h : Dict Str Str} (hm : SimpleMsg st.isRequest h)
    (hinv : Inv D st)
    (ha : st.seven = true → Ascii h) (ord : Dict Str Str → Dict Str Str) (hord : ∀ d, (ord d).Perm d) :
    ∃ st1 c st2 out, simpleCompress D ord st h = .ok (st1, c) ∧ simpleDecompress D ord st1 c = .ok (st2, out) ∧
      Same (normAll D h) out ∧ Inv D st2 ∧ st2.isRequest = st.isRequest ∧ st2.seven = st.seven := by
  obtain ⟨R, T, hc, hR, hTwf, hmsg, hTmem⟩ := compress_spec hD hm ord hord
  have key : ∀ c, c = (if st.seven then sevenEncode (formatHttp1 simpleFmt (ord T)) else formatHttp1 simpleFmt (ord T)) →
      stripBy isWs (if st.seven then sevenDecode c else c) = stripBy isWs (formatHttp1 simpleFmt (ord T)) := by
    rintro c rfl
    cases hs : st.seven with
    | false => rfl
    | true =>
      simp only [if_true]
      refine seven_strip (format_ascii (by decide) ?_) ⟨_, rfl⟩
      intro n v hv
      have hah := ha hs
      rcases (hTmem n v).1 ((hord T).mem_iff.1 hv) with ⟨k, w, hk, _, _, rfl, rfl⟩ | ⟨_, rfl, rfl⟩
      · refine ⟨?_, sendValue_ascii hD (hah k w hk).2⟩
        have := (hah k w hk).1
        rcases nm_cases k with ⟨_, e⟩ | ⟨_, hmem, _⟩ | ⟨_, e⟩
        · rw [e]; exact this
        · intro c hc'
          simpa using List.all_eq_true.1 (table_names _ hmem).2.2.2.2.2 c hc'
        · rw [e]
          intro c hc'
          rcases List.mem_cons.1 hc' with rfl | hc'
          · decide
          · exact this c hc'
      · refine ⟨by decide, ?_⟩
        have : ∀ c ∈ joinWith [44] (R.map fun k => nm (slot k)), decide (128 ≤ c) = false := by
          refine join_plain (ws := fun c => decide (128 ≤ c)) (by decide) _ ?_
          intro x hx c hc'
          obtain ⟨k, hk, rfl⟩ := List.mem_map.1 hx
          obtain ⟨_, v, hv', _⟩ := hR k hk
          have hk' := (hah k v hv').1
          have hs' : ∀ c ∈ slot k, c < 128 := by
            unfold slot
            split
            · decide
            · exact hk'
          simp only [decide_eq_false_iff_not, Nat.not_le]
          rcases nm_cases (slot k) with ⟨_, e⟩ | ⟨_, hmem, _⟩ | ⟨_, e⟩
          · rw [e] at hc'; exact hs' c hc'
          · simpa using List.all_eq_true.1 (table_names _ hmem).2.2.2.2.2 c hc'
          · rw [e] at hc'
            rcases List.mem_cons.1 hc' with rfl | hc'
            · decide
            · exact hs' c hc'
        intro c hc'
        have h2 := this c hc'
        simp only [decide_eq_false_iff_not, Nat.not_le] at h2
        exact h2
  obtain ⟨st', out, hd, h1, h2, h3, h4⟩ := decompress_spec hm hinv ord hord hR hTwf hmsg hTmem (key _ rfl)
  exact ⟨_, _, st', out, hc, hd, h1, h2, h3, h4⟩

theorem session_spec {D : Option Dates} (hD : DatesOk D) (ord : Dict Str Str → Dict Str Str) (hord : ∀ d, (ord d).Perm d) (hs : List (Dict Str Str)) :
    ∀ (st : Simple), Inv D st → (∀ h ∈ hs, SimpleMsg st.isRequest h) → (st.seven = true → ∀ h ∈ hs, Ascii h) →
    ∃ outs, simpleSession D ord st hs = .ok outs ∧ List.Forall₂ (fun h out => Same (normAll D h) out) hs outs := by
  induction hs with
  | nil => intro st _ _ _; exact ⟨[], rfl, .nil⟩
  | cons h hs ih =>
    intro st hinv hm ha
    obtain ⟨st1, c, st2, out, hc, hd, h1, h2, h3, h4⟩ := step_spec hD (hm h (by simp)) hinv (fun hs' => ha hs' h (by simp)) ord hord
    obtain ⟨outs, ho, hf⟩ := ih st2 h2 (fun x hx => by rw [h3]; exact hm x (by simp [hx]))
      (fun hs' x hx => ha (by rw [← h4]; exact hs') x (by simp [hx]))
    refine ⟨out :: outs, ?_, .cons h1 hf⟩
    rw [simpleSession]
    simp only [hc, hd, ho, bind, Except.bind, pure, Except.pure]

/-- Messages that agree outside the two names the tester leaves out look the same to it. -/
theorem same_equiv {h out : Dict Str Str} (hwf : h.WF) (hs : Same h out) : Lib.Spec.Equiv h out := by
  have : ∀ n v, n ≠ b!":version" → n ≠ b!":status-text" → ((n, v) ∈ h ↔ (n, v) ∈ out) := by
    intro n v h1 h2
    rw [← get?_some_iff hwf, ← get?_some_iff hs.1, hs.2 n (by simp [h1, h2])]
  intro name x
  unfold Lib.Spec.Shows
  constructor
  · rintro ⟨h1, h2, h3, v, p, hv, hp⟩; exact ⟨h1, h2, h3, v, p, (this name v h1 h2).1 hv, hp⟩
  · rintro ⟨h1, h2, h3, v, p, hv, hp⟩; exact ⟨h1, h2, h3, v, p, (this name v h1 h2).2 hv, hp⟩

theorem decoded_same {isRequest : Bool} {version : Str} {h out : Dict Str Str} (hd : Decoded isRequest version h out) :
    Same h out := by
  refine ⟨hd.1, fun n hn => ?_⟩
  simp only [List.mem_cons, List.not_mem_nil, or_false, not_or] at hn
  rw [hd.2 n, if_neg hn.2, if_neg (fun hx => hn.1 hx.2)]

/-! ### the empty path -/

theorem splitWs2_two {ws : Nat → Bool} (h32 : ws 32 = true) {a c w : Str} (ha : Word ws a) (hc : Word ws c)
    (hw : ∀ x ∈ w, ws x = true) : splitWs2 ws (a ++ [32] ++ [] ++ [32] ++ c ++ w) = [a, c] := by
  have e : a ++ [32] ++ [] ++ [32] ++ c ++ w = a ++ 32 :: (32 :: (c ++ w)) := by simp
  have h1 := takeWhile_word ha.2 h32 (32 :: (c ++ w))
  have d1 : (32 :: 32 :: (c ++ w)).dropWhile ws = c ++ w := by
    rw [List.dropWhile_cons, if_pos h32, List.dropWhile_cons, if_pos h32, dropWhile_word hc]
  have h2 : (c ++ w).takeWhile (fun c => !ws c) = c ∧ ((c ++ w).dropWhile (fun c => !ws c)).dropWhile ws = [] := by
    cases w with
    | nil =>
      have := hc.2
      refine ⟨?_, ?_⟩
      · rw [List.append_nil, List.takeWhile_eq_self_iff]; intro x hx; simp [this x hx]
      · rw [List.append_nil]
        have : c.dropWhile (fun c => !ws c) = [] := by
          rw [List.dropWhile_eq_nil_iff]; intro x hx; simp [this x hx]
        rw [this]; rfl
    | cons x xs =>
      have := takeWhile_word hc.2 (hw x (by simp)) xs
      refine ⟨this.1, ?_⟩
      rw [this.2, List.dropWhile_eq_nil_iff]
      exact hw
  unfold splitWs2
  rw [e]
  simp only [dropWhile_word ha, h1.1, h1.2, d1, h2.1, h2.2]
  rw [if_neg (by simp), if_neg (by simp [hc.1]), if_pos trivial]

theorem get?_append_ne {a b : Dict Str Str} {k v w n : Str} (h : n ≠ k) :
    Dict.get? (a ++ (k, v) :: b) n = Dict.get? (a ++ (k, w) :: b) n := by
  induction a with
  | nil => simp [Dict.get?, if_neg (fun hc : k = n => h hc.symm)]
  | cons x xs ih =>
    obtain ⟨x1, x2⟩ := x
    simp only [List.cons_append, Dict.get?, ih]

theorem get?_append_mid {a b : Dict Str Str} {k v : Str} (h : k ∉ a.keys) :
    Dict.get? (a ++ (k, v) :: b) k = some v := by
  induction a with
  | nil => simp [Dict.get?]
  | cons x xs ih =>
    obtain ⟨x1, x2⟩ := x
    simp only [Dict.keys, List.map_cons, List.mem_cons, not_or] at h
    rw [List.cons_append, Dict.get?, if_neg (fun hc => h.1 hc.symm)]
    exact ih h.2

theorem empty_path {lower : Str → Str} {ws : Nat → Bool} (hws : Blank ws) {f : Fmt} {r sp : Str}
    (hf : GoodFmt lower ws f r sp) {a b : Dict Str Str} {p : Str}
    (hm : Message lower ws true f.host (a ++ (b!":path", p) :: b))
    (hv : ∀ v, (b!":version", v) ∈ a ++ (b!":path", p) :: b → Word ws v) :
    parseHttp1 lower ws (formatHttp1 f (a ++ (b!":path", []) :: b)) true f.host = .error .index := by
  have hline : ∀ v, lineHeaders f.host (topNames true) (a ++ (b!":path", v) :: b) =
      lineHeaders f.host (topNames true) (a ++ b) := by
    intro v
    unfold lineHeaders
    rw [List.filter_append, List.filter_cons, if_neg (by simp [topNames]), List.filter_append]
  obtain ⟨m, hmget⟩ := keys_get? (hm.kind.2 rfl)
  have hmw := hm.method m rfl ((get?_some_iff hm.wf).1 hmget)
  have hmget' : Dict.get? (a ++ (b!":path", []) :: b) b!":method" = some m := by
    rw [get?_append_ne (w := p) (by decide)]; exact hmget
  have hhas : Dict.has (a ++ (b!":path", []) :: b) b!":method" = true := by simp [Dict.has, hmget']
  have hpk : b!":path" ∉ a.keys := by
    have := hm.wf
    unfold Dict.WF Dict.keys at this
    rw [List.map_append, List.map_cons] at this
    intro hc
    exact (List.nodup_append.1 this).2.2 _ hc _ (by simp) rfl
  have hver : Word ws (getD (a ++ (b!":path", []) :: b) b!":version" f.version) := by
    unfold getD
    rw [get?_append_ne (w := p) (by decide)]
    cases hg : Dict.get? (a ++ (b!":path", p) :: b) b!":version" with
    | none => exact hf.ver
    | some v => exact hv v ((get?_some_iff hm.wf).1 hg)
  have htop : topLine f (a ++ (b!":path", []) :: b) =
      m ++ [32] ++ [] ++ [32] ++ getD (a ++ (b!":path", []) :: b) b!":version" f.version := by
    unfold topLine
    rw [hhas, if_pos rfl]
    have h1 : getD (a ++ (b!":path", []) :: b) b!":method" [] = m := by unfold getD; rw [hmget']; rfl
    have h2 : getD (a ++ (b!":path", []) :: b) b!":path" [] = [] := by
      unfold getD; rw [get?_append_mid hpk]; rfl
    rw [h1, h2]
  obtain ⟨w, rest, hw, hsplit, hparse⟩ := parse_body (lower := lower) hws hf.rws hf.r10 hf.spws hf.sp10
    (topLine f (a ++ (b!":path", []) :: b)) (by rw [htop]; simp)
    (by rw [htop]; exact trimmed_three hmw hver.1 (word_trimmed hver))
    (by rw [htop]; simp [word_no10 hws hmw, word_no10 hws hver])
    (lineHeaders f.host (topNames true) (a ++ b))
    (by rw [← hline p]; exact wf_lineHeaders hm.wf (.inl (hm.noHost rfl)))
    (by
      intro k v hkv
      rw [← hline p] at hkv
      obtain ⟨k', h1, h2, rfl⟩ := mem_lineHeaders.1 hkv
      unfold rename
      split
      · exact hf.hostName
      · exact hm.names _ _ h1 h2)
    (by
      intro k v hkv
      rw [← hline p] at hkv
      obtain ⟨k', h1, h2, rfl⟩ := mem_lineHeaders.1 hkv
      exact hm.values _ _ h1 h2)
  have hform : formatHttp1 f (a ++ (b!":path", []) :: b) = topLine f (a ++ (b!":path", []) :: b) ++ (r ++ [10]) ++
      (theLines sp (lineHeaders f.host (topNames true) (a ++ b))).flatMap (fun x => x ++ (r ++ [10])) ++ (r ++ [10]) := by
    unfold formatHttp1
    have : avoidList (a ++ (b!":path", []) :: b) = topNames true := by unfold avoidList topNames; rw [hhas]
    rw [this, format_lines hf.vsep, hf.delim, hline]
  unfold parseHttp1
  rw [hform, hsplit]
  simp only [List.headD_cons, List.tail_cons, hparse, bind, Except.bind, if_true]
  rw [htop, splitWs2_two hws.space hmw hver hw]
  rfl

end Verif.Text
