import Verif.Lib.Run
/-
Lemmas about har2hdrs.
-/
namespace Verif.Lib
open Verif Verif.Lib.Spec

/-- The names har2hdrs sets itself in a request. -/
def reqOwn : List Str := [b!":method", b!":path", b!":scheme", b!":version", b!":host"]

/-- The names har2hdrs sets itself in a response. -/
def resOwn : List Str := [b!":status", b!":status-text", b!":version"]

theorem harRequest_ok {lower : Str → Str} {seen : List (Dict Str Str)} {e : HarEntry} {q : Dict Str Str}
    (h : harRequest lower seen e = .ok q) :
    (∀ x ∈ e.reqHeaders, lower x.1 ≠ []) ∧ q.WF ∧
    q.get? b!":method" = some (lower e.method) ∧
    q.get? b!":path" = some (if e.query = [] then e.path else e.path ++ [63] ++ e.query) ∧
    q.get? b!":scheme" = some (lower e.scheme) ∧
    q.get? b!":version" = some e.reqVersion ∧
    q.get? b!":host" = some (reHost e.url) ∧
    ∀ n, n ∉ reqOwn →
      let vs := valuesOf (e.reqHeaders.map fun h => (filedName lower h.1, h.2)) n
      q.get? n = if vs = [] then none else some (joinWith [0] vs) := by
  obtain ⟨p1, p2⟩ := processHeaders_spec lower e.reqHeaders [] Dict.wf_nil
  unfold harRequest at h
  by_cases hbad : ∃ x ∈ e.reqHeaders, lower x.1 = []
  · rw [p1 hbad] at h; cases h
  · have hgood : ∀ x ∈ e.reqHeaders, lower x.1 ≠ [] := fun x hx hc => hbad ⟨x, hx, hc⟩
    obtain ⟨d, d1, d2, d3⟩ := p2 hgood
    rw [d1] at h
    simp only [bind, Except.bind, pure, Except.pure, strInDicts, Bool.false_eq_true, if_false,
      Except.ok.injEq] at h
    subst h
    refine ⟨hgood, ((((d2.set _ _).set _ _).set _ _).set _ _).set _ _, ?_, ?_, ?_, ?_, ?_, ?_⟩
    · simp [Dict.get?_set]
    · simp [Dict.get?_set]
    · simp [Dict.get?_set]
    · simp [Dict.get?_set]
    · simp [Dict.get?_set]
    · intro n hn
      simp only [reqOwn, List.mem_cons, List.not_mem_nil, or_false, not_or] at hn
      obtain ⟨n1, n2, n3, n4, n5⟩ := hn
      simp only [Dict.get?_set, if_neg (Ne.symm n1), if_neg (Ne.symm n2), if_neg (Ne.symm n3),
        if_neg (Ne.symm n4), if_neg (Ne.symm n5)]
      rw [d3 n]; rfl

theorem harResponse_ok {lower : Str → Str} {ws : Nat → Bool} {e : HarEntry} {q : Dict Str Str}
    (h : harResponse lower ws e = .ok q) :
    (∀ x ∈ e.resHeaders, lower x.1 ≠ []) ∧ q.WF ∧
    q.get? b!":status" = some (reStatus e.status) ∧
    q.get? b!":status-text" = some (if stripBy ws e.statusText = [] then
      (statusPhrases.get? (reStatus e.status)).getD b!"unknown" else stripBy ws e.statusText) ∧
    q.get? b!":version" = some e.resVersion ∧
    ∀ n, n ∉ resOwn →
      let vs := valuesOf (e.resHeaders.map fun h => (filedName lower h.1, h.2)) n
      q.get? n = if vs = [] then none else some (joinWith [0] vs) := by
  obtain ⟨p1, p2⟩ := processHeaders_spec lower e.resHeaders [] Dict.wf_nil
  unfold harResponse at h
  by_cases hbad : ∃ x ∈ e.resHeaders, lower x.1 = []
  · rw [p1 hbad] at h; cases h
  · have hgood : ∀ x ∈ e.resHeaders, lower x.1 ≠ [] := fun x hx hc => hbad ⟨x, hx, hc⟩
    obtain ⟨d, d1, d2, d3⟩ := p2 hgood
    rw [d1] at h
    simp only [bind, Except.bind, pure, Except.pure, Except.ok.injEq] at h
    subst h
    refine ⟨hgood, ((d2.set _ _).set _ _).set _ _, ?_, ?_, ?_, ?_⟩
    · simp [Dict.get?_set]
    · simp only [Dict.get?_set]
      rw [if_neg (by decide), if_pos trivial]
      congr 1
      split
      · cases statusPhrases.get? (reStatus e.status) <;> rfl
      · rfl
    · simp [Dict.get?_set]
    · intro n hn
      simp only [resOwn, List.mem_cons, List.not_mem_nil, or_false, not_or] at hn
      obtain ⟨n1, n2, n3⟩ := hn
      simp only [Dict.get?_set, if_neg (Ne.symm n1), if_neg (Ne.symm n2), if_neg (Ne.symm n3)]
      rw [d3 n]; rfl

theorem harRequest_total {lower : Str → Str} {seen : List (Dict Str Str)} {e : HarEntry}
    (hgood : ∀ x ∈ e.reqHeaders, lower x.1 ≠ []) : ∃ q, harRequest lower seen e = .ok q := by
  obtain ⟨d, d1, _⟩ := (processHeaders_spec lower e.reqHeaders [] Dict.wf_nil).2 hgood
  unfold harRequest
  rw [d1]; exact ⟨_, rfl⟩

theorem harResponse_total {lower : Str → Str} {ws : Nat → Bool} {e : HarEntry}
    (hgood : ∀ x ∈ e.resHeaders, lower x.1 ≠ []) : ∃ q, harResponse lower ws e = .ok q := by
  obtain ⟨d, d1, _⟩ := (processHeaders_spec lower e.resHeaders [] Dict.wf_nil).2 hgood
  unfold harResponse
  rw [d1]; exact ⟨_, rfl⟩

/-- An entry that is kept. -/
def isHttp (lower : Str → Str) (e : HarEntry) : Bool :=
  lower e.scheme = b!"http" ∨ lower e.scheme = b!"https"

theorem harLoop_ok (lower : Str → Str) (ws : Nat → Bool) (es : List HarEntry) :
    ∀ (reqs ress R S : List (Dict Str Str)), harLoop lower ws es (reqs, ress) = .ok (R, S) →
    ∃ R' S', R = reqs ++ R' ∧ S = ress ++ S' ∧
      List.Forall₂ (fun e q => ∃ seen, harRequest lower seen e = .ok q) (es.filter (isHttp lower)) R' ∧
      List.Forall₂ (fun e s => harResponse lower ws e = .ok s) (es.filter (isHttp lower)) S' := by
  induction es with
  | nil =>
    intro reqs ress R S h
    cases h
    exact ⟨[], [], by simp, by simp, .nil, .nil⟩
  | cons e es ih =>
    intro reqs ress R S h
    rw [harLoop] at h
    by_cases hh : lower e.scheme = b!"http" ∨ lower e.scheme = b!"https"
    · rw [if_pos hh] at h
      cases h1 : harRequest lower reqs e with
      | error x => rw [h1] at h; cases h
      | ok q =>
        cases h2 : harResponse lower ws e with
        | error x => rw [h1, h2] at h; cases h
        | ok s =>
          rw [h1, h2] at h
          simp only [bind, Except.bind] at h
          obtain ⟨R', S', i1, i2, i3, i4⟩ := ih _ _ _ _ h
          have hf : isHttp lower e = true := by simp [isHttp, hh]
          rw [List.filter_cons, if_pos hf]
          exact ⟨q :: R', s :: S', by simp [i1], by simp [i2], .cons ⟨_, h1⟩ i3, .cons h2 i4⟩
    · rw [if_neg hh] at h
      have hf : ¬ isHttp lower e = true := by simp only [isHttp, decide_eq_true_eq]; exact hh
      rw [List.filter_cons, if_neg hf]
      exact ih _ _ _ _ h

theorem harLoop_total (lower : Str → Str) (ws : Nat → Bool) (es : List HarEntry) :
    ∀ (out : List (Dict Str Str) × List (Dict Str Str)),
    ((∃ e ∈ es, isHttp lower e = true ∧ ∃ x ∈ e.reqHeaders ++ e.resHeaders, lower x.1 = []) →
      harLoop lower ws es out = .error .standard) ∧
    ((∀ e ∈ es, isHttp lower e = true → ∀ x ∈ e.reqHeaders ++ e.resHeaders, lower x.1 ≠ []) →
      ∃ q, harLoop lower ws es out = .ok q) := by
  induction es with
  | nil => intro out; exact ⟨by simp, fun _ => ⟨out, rfl⟩⟩
  | cons e es ih =>
    intro out
    obtain ⟨reqs, ress⟩ := out
    rw [harLoop]
    by_cases hh : lower e.scheme = b!"http" ∨ lower e.scheme = b!"https"
    · have hf : isHttp lower e = true := by simp [isHttp, hh]
      rw [if_pos hh]
      by_cases hq : ∃ x ∈ e.reqHeaders, lower x.1 = []
      · have h1 : harRequest lower reqs e = .error .standard := by
          unfold harRequest
          rw [(processHeaders_spec lower e.reqHeaders [] Dict.wf_nil).1 hq]; rfl
        rw [h1]
        refine ⟨fun _ => rfl, fun h => ?_⟩
        obtain ⟨x, hx, he⟩ := hq
        exact absurd he (h e (by simp) hf x (by simp [hx]))
      · obtain ⟨q, h1⟩ := harRequest_total (lower := lower) (seen := reqs) (e := e)
          (fun x hx hc => hq ⟨x, hx, hc⟩)
        rw [h1]
        by_cases hs : ∃ x ∈ e.resHeaders, lower x.1 = []
        · have h2 : harResponse lower ws e = .error .standard := by
            unfold harResponse
            rw [(processHeaders_spec lower e.resHeaders [] Dict.wf_nil).1 hs]; rfl
          rw [h2]
          refine ⟨fun _ => rfl, fun h => ?_⟩
          obtain ⟨x, hx, he⟩ := hs
          exact absurd he (h e (by simp) hf x (by simp [hx]))
        · obtain ⟨s, h2⟩ := harResponse_total (lower := lower) (ws := ws) (e := e)
            (fun x hx hc => hs ⟨x, hx, hc⟩)
          rw [h2]
          simp only [bind, Except.bind]
          obtain ⟨i1, i2⟩ := ih (reqs ++ [q], ress ++ [s])
          refine ⟨?_, fun h => i2 (fun e he => h e (by simp [he]))⟩
          rintro ⟨e', he', hf', x, hx, hl⟩
          rcases List.mem_cons.1 he' with rfl | he'
          · rcases List.mem_append.1 hx with hx | hx
            · exact absurd ⟨x, hx, hl⟩ hq
            · exact absurd ⟨x, hx, hl⟩ hs
          · exact i1 ⟨e', he', hf', x, hx, hl⟩
    · rw [if_neg hh]
      have hf : ¬ isHttp lower e = true := by simp only [isHttp, decide_eq_true_eq]; exact hh
      obtain ⟨i1, i2⟩ := ih (reqs, ress)
      refine ⟨?_, fun h => i2 (fun e he => h e (by simp [he]))⟩
      rintro ⟨e', he', hf', x, hx, hl⟩
      rcases List.mem_cons.1 he' with rfl | he'
      · exact absurd hf' hf
      · exact i1 ⟨e', he', hf', x, hx, hl⟩

/-- The host taken from a URL with a path. -/
theorem reHost_eq {scheme host path : Str} (h1 : 58 ∉ scheme) (h2 : 47 ∉ host) (h3 : 10 ∉ path) :
    reHost (scheme ++ b!"://" ++ host ++ b!"/" ++ path) = host := by
  unfold reHost
  have e1 : scheme ++ b!"://" ++ host ++ b!"/" ++ path = scheme ++ 58 :: (47 :: 47 :: (host ++ 47 :: path)) := by
    simp
  rw [e1, splitOnce_eq h1]
  simp only
  rw [splitOnce_eq h2]
  simp only
  have : path.dropWhile (fun c => decide (c ≠ 10)) = [] := by
    refine dropWhile_all fun x hx => ?_
    simp only [decide_eq_true_eq]
    intro e; subst e; exact h3 hx
  rw [this]

/-- A URL without a path is returned whole. -/
theorem reHost_noPath {scheme host : Str} (h1 : 58 ∉ scheme) (h2 : 47 ∉ host) :
    reHost (scheme ++ b!"://" ++ host) = scheme ++ b!"://" ++ host := by
  unfold reHost
  have e1 : scheme ++ b!"://" ++ host = scheme ++ 58 :: (47 :: 47 :: host) := by simp
  rw [e1, splitOnce_eq h1]
  simp only
  rw [splitOnce_none.2 h2]

end Verif.Lib
