import Verif.HeaderDiff.Any
/-
The decoder of headerdiff after an exception.
-/
namespace Verif.HeaderDiff
open Verif

/-- headerDiffCodec.py 187-287: the decoder after one turn of the loop, also if the turn raises.  The only change that is
made before something that can raise is the new name (251); 278-282 and 285-286 are last. -/
def headerLeft (cfg : Cfg) (d : Dec) (s : List Nat) : Dec :=
  match decodeHeader cfg d s with
  | .ok (d', _, _) => d'
  | .error _ =>
    if d.size > cfg.maxSize then d
    else match readByte s with
      | .error _ => d
      | .ok (b0, s) =>
        if b0 &&& 0x80 ≠ 0 then d
        else if b0 &&& 0x40 ≠ 0 then d
        else match decodeName cfg d b0 (if b0 &&& 0x30 == 0x20 || b0 &&& 0x30 == 0x30 then 4 else 5) s with
          | .error _ => d
          | .ok (d', _, _) => d'

/-- headerDiffCodec.py 187-287: the decoder after the loop, also if a turn raises. -/
def loopLeft (cfg : Cfg) : Nat → Dec → List Nat → Dec
  | 0, d, _ => d
  | n + 1, d, s =>
    match decodeHeader cfg d s with
    | .ok (d', _, s') => loopLeft cfg n d' s'
    | .error _ => headerLeft cfg d s

/-- headerDiffCodec.py 171-290: the decoder after decodeHeaders, also if it raises. -/
def decodeLeft (cfg : Cfg) (d : Dec) (stream : List Nat) : Dec :=
  match readByte (stream.drop 8) with
  | .error _ => d
  | .ok (nb, s) => loopLeft cfg nb d s

theorem loopLeft_ok {cfg : Cfg} : ∀ {n : Nat} {d : Dec} {s : List Nat} {d' : Dec} {hs : List Hdr},
    decodeLoop cfg n d s = .ok (d', hs) → loopLeft cfg n d s = d'
  | 0, d, s, d', hs, h => by cases h; rfl
  | n + 1, d, s, d', hs, h => by
    unfold decodeLoop at h
    unfold loopLeft
    cases e : decodeHeader cfg d s with
    | error e' => simp [e, bind, Except.bind] at h
    | ok q =>
      obtain ⟨d1, h1, s1⟩ := q
      simp only [e, bind, Except.bind] at h ⊢
      cases e2 : decodeLoop cfg n d1 s1 with
      | error e' => simp [e2] at h
      | ok q =>
        obtain ⟨d2, hs2⟩ := q
        simp only [e2, Except.ok.injEq, Prod.mk.injEq] at h
        rw [← h.1]
        exact loopLeft_ok e2

theorem decodeLeft_ok {cfg : Cfg} {d d' : Dec} {f : List Nat} {hs : List Hdr} (h : decodeHeaders cfg d f = .ok (d', hs)) :
    decodeLeft cfg d f = d' := by
  unfold decodeHeaders at h
  unfold decodeLeft
  cases e : readByte (f.drop 8) with
  | error e' => simp [e, bind, Except.bind] at h
  | ok q =>
    obtain ⟨nb, s⟩ := q
    simp only [e, bind, Except.bind] at h ⊢
    exact loopLeft_ok h

/-- The lengths of the values together. -/
def valueSum (hs : List Hdr) : Int := (hs.map fun h => (h.2.length : Int)).sum

theorem valueSum_set : ∀ {hs : List Hdr} {i : Nat} {old : Hdr} (h : Hdr), hs[i]? = some old →
    valueSum (hs.set i h) = valueSum hs + ((h.2.length : Int) - old.2.length)
  | [], i, old, h, e => by simp at e
  | x :: hs, 0, old, h, e => by
    simp only [List.getElem?_cons_zero, Option.some.injEq] at e
    subst e
    simp only [valueSum, List.set_cons_zero, List.map_cons, List.sum_cons]
    omega
  | x :: hs, i + 1, old, h, e => by
    have := valueSum_set h (show hs[i]? = some old by simpa using e)
    simp only [valueSum, List.set_cons_succ, List.map_cons, List.sum_cons] at this ⊢
    omega

theorem decodeIndexing_sum {d d' : Dec} {sub inc : Bool} {ref : Nat} {h : Hdr} (hd : d.size = valueSum d.headers)
    (e : decodeIndexing d sub inc ref h = .ok d') : d'.size = valueSum d'.headers ∧ d'.names = d.names := by
  unfold decodeIndexing at e
  cases sub with
  | true =>
    unfold item at e
    cases hi : d.headers[ref]? with
    | none => simp [hi, bind, Except.bind] at e
    | some old =>
      simp only [hi, bind, Except.bind, if_true, Except.ok.injEq] at e
      subst e
      exact ⟨by rw [valueSum_set h hi, hd], rfl⟩
  | false =>
    cases inc with
    | true =>
      simp only [Bool.false_eq_true, if_false, if_true, Except.ok.injEq] at e
      subst e
      exact ⟨by simp [valueSum, hd], rfl⟩
    | false =>
      simp only [Bool.false_eq_true, if_false, Except.ok.injEq] at e
      subst e
      exact ⟨hd, rfl⟩

theorem decodeName_keeps {cfg : Cfg} {d d' : Dec} {b0 p : Nat} {s s' : List Nat} {name : Str}
    (e : decodeName cfg d b0 p s = .ok (d', name, s')) :
    d'.headers = d.headers ∧ d'.size = d.size ∧ (d'.names = d.names ∨ d'.names = d.names ++ [name]) := by
  unfold decodeName at e
  cases h1 : readInteger b0 p s with
  | error e' => simp [h1, bind, Except.bind] at e
  | ok q =>
    obtain ⟨ref, s1⟩ := q
    simp only [h1, bind, Except.bind] at e
    by_cases h0 : ref = 0
    · rw [if_pos h0] at e
      cases h2 : readString cfg s1 with
      | error e' => simp [h2] at e
      | ok q =>
        obtain ⟨v, s2⟩ := q
        simp only [h2, Except.ok.injEq, Prod.mk.injEq] at e
        obtain ⟨rfl, rfl, rfl⟩ := e
        exact ⟨rfl, rfl, .inr rfl⟩
    · rw [if_neg h0] at e
      cases h2 : item d.names (ref - 1) with
      | error e' => simp [h2] at e
      | ok v =>
        simp only [h2, Except.ok.injEq, Prod.mk.injEq] at e
        obtain ⟨rfl, rfl, rfl⟩ := e
        exact ⟨rfl, rfl, .inl rfl⟩

theorem valuePart_sum {cfg : Cfg} {b0 : Nat} {sub inc : Bool} {d d' : Dec} {name : Str} {s s' : List Nat} {h : Hdr}
    (hd : d.size = valueSum d.headers) (e : valuePart cfg b0 sub inc d name s = .ok (d', h, s')) : d'.size = valueSum d'.headers := by
  have tail : ∀ ref r, (do
        let (value, s) ← readString cfg r
        let d ← decodeIndexing d sub inc ref (name, value)
        .ok (d, (name, value), s) : Py (Dec × Hdr × List Nat)) = .ok (d', h, s') → d'.size = valueSum d'.headers := by
    intro ref r e
    cases h1 : readString cfg r with
    | error e' => simp [h1, bind, Except.bind] at e
    | ok q =>
      obtain ⟨v, r'⟩ := q
      simp only [h1, bind, Except.bind] at e
      cases h2 : decodeIndexing d sub inc ref (name, v) with
      | error e' => simp [h2] at e
      | ok d1 =>
        simp only [h2, Except.ok.injEq, Prod.mk.injEq] at e
        rw [← e.1]
        exact (decodeIndexing_sum hd h2).1
  unfold valuePart at e
  cases sub with
  | false => exact tail 0 s e
  | true =>
    simp only [if_true] at e
    cases h1 : readInteger b0 0 s with
    | error e' => simp [h1, bind, Except.bind] at e
    | ok q =>
      obtain ⟨i, r⟩ := q
      simp only [h1, bind, Except.bind] at e
      exact tail i r e

theorem decodeNew_sum {cfg : Cfg} {d d' : Dec} {b0 : Nat} {s s' : List Nat} {h : Hdr}
    (hd : d.size = valueSum d.headers) (e : decodeNew cfg d b0 s = .ok (d', h, s')) : d'.size = valueSum d'.headers := by
  unfold decodeNew at e
  generalize (b0 &&& 0x30 == 0x20) = inc at e
  generalize (b0 &&& 0x30 == 0x30) = sub at e
  simp only at e
  generalize (if inc || sub then 4 else 5) = pb at e
  by_cases hb : b0 &&& 0x40 ≠ 0
  · rw [if_pos hb] at e
    cases h1 : readInteger b0 pb s with
    | error e' => simp [h1, bind, Except.bind] at e
    | ok q =>
      obtain ⟨ref, s1⟩ := q
      simp only [h1, bind, Except.bind] at e
      cases h2 : item d.headers ref with
      | error e' => simp [h2] at e
      | ok old =>
        simp only [h2] at e
        cases h3 : readInteger b0 0 s1 with
        | error e' => simp [h3] at e
        | ok q =>
          obtain ⟨pl, s2⟩ := q
          simp only [h3] at e
          cases h4 : readString cfg s2 with
          | error e' => simp [h4] at e
          | ok q =>
            obtain ⟨v, s3⟩ := q
            simp only [h4] at e
            cases h5 : decodeIndexing d sub inc ref (old.1, old.2.take pl ++ v) with
            | error e' => simp [h5] at e
            | ok d1 =>
              simp only [h5, Except.ok.injEq, Prod.mk.injEq] at e
              rw [← e.1]
              exact (decodeIndexing_sum hd h5).1
  · rw [if_neg hb] at e
    have un : (do
        let (d, name, s) ← decodeName cfg d b0 pb s
        let (ref, s) ← if sub then readInteger b0 0 s else .ok (0, s)
        let (value, s) ← readString cfg s
        let d ← decodeIndexing d sub inc ref (name, value)
        .ok (d, (name, value), s) : Py (Dec × Hdr × List Nat)) = (do
        let (d, name, s) ← decodeName cfg d b0 pb s
        valuePart cfg b0 sub inc d name s) := rfl
    rw [un] at e
    cases h1 : decodeName cfg d b0 pb s with
    | error e' => simp [h1, bind, Except.bind] at e
    | ok q =>
      obtain ⟨d1, name, s1⟩ := q
      simp only [h1, bind, Except.bind] at e
      obtain ⟨k1, k2, _⟩ := decodeName_keeps h1
      exact valuePart_sum (by rw [k1, k2, hd]) e

theorem decodeHeader_sum {cfg : Cfg} {d d' : Dec} {s s' : List Nat} {h : Hdr}
    (hd : d.size = valueSum d.headers) (e : decodeHeader cfg d s = .ok (d', h, s')) : d'.size = valueSum d'.headers := by
  unfold decodeHeader at e
  by_cases hm : d.size > cfg.maxSize
  · simp [hm] at e
  · rw [if_neg hm] at e
    cases h1 : readByte s with
    | error e' => simp [h1, bind, Except.bind] at e
    | ok q =>
      obtain ⟨b0, s1⟩ := q
      simp only [h1, bind, Except.bind] at e
      by_cases hb : b0 &&& 0x80 ≠ 0
      · rw [if_pos hb] at e
        cases h2 : decodeIndexed d b0 s1 with
        | error e' => simp [h2] at e
        | ok q =>
          obtain ⟨h', s2⟩ := q
          simp only [h2, Except.ok.injEq, Prod.mk.injEq] at e
          rw [← e.1]
          exact hd
      · rw [if_neg hb] at e
        exact decodeNew_sum hd e

/-- What a turn that raises leaves. -/
theorem headerLeft_keeps {cfg : Cfg} {d : Dec} {s : List Nat} {err : PyErr} (e : decodeHeader cfg d s = .error err) :
    (headerLeft cfg d s).headers = d.headers ∧ (headerLeft cfg d s).size = d.size ∧
    ((headerLeft cfg d s).names = d.names ∨ ∃ name, (headerLeft cfg d s).names = d.names ++ [name]) := by
  unfold headerLeft
  rw [e]
  simp only
  split
  · exact ⟨rfl, rfl, .inl rfl⟩
  · split
    · exact ⟨rfl, rfl, .inl rfl⟩
    · split
      · exact ⟨rfl, rfl, .inl rfl⟩
      · split
        · exact ⟨rfl, rfl, .inl rfl⟩
        · split
          · exact ⟨rfl, rfl, .inl rfl⟩
          · rename_i h
            obtain ⟨k1, k2, k3⟩ := decodeName_keeps h
            exact ⟨k1, k2, k3.imp id fun h => ⟨_, h⟩⟩

/-- What is left is the state after some of the headers, with at most one more name. -/
theorem loopLeft_prefix {cfg : Cfg} : ∀ (n : Nat) (d : Dec) (s : List Nat),
    ∃ k d' hs, k ≤ n ∧ decodeLoop cfg k d s = .ok (d', hs) ∧ (loopLeft cfg n d s).headers = d'.headers ∧
      (loopLeft cfg n d s).size = d'.size ∧
      ((loopLeft cfg n d s).names = d'.names ∨ k < n ∧ ∃ name, (loopLeft cfg n d s).names = d'.names ++ [name]) ∧
      ((decodeLoop cfg n d s).isOk = true → k = n) ∧ ((decodeLoop cfg n d s).isOk = false → k < n ∧ (decodeLoop cfg (k + 1) d s).isOk = false)
  | 0, d, s => ⟨0, d, [], Nat.le_refl _, rfl, rfl, rfl, .inl rfl, fun _ => rfl, fun h => by cases h⟩
  | n + 1, d, s => by
    unfold loopLeft
    cases e : decodeHeader cfg d s with
    | error e' =>
      obtain ⟨h1, h2, h3⟩ := headerLeft_keeps e
      have hf : ∀ m, (decodeLoop cfg (m + 1) d s).isOk = false := by
        intro m
        unfold decodeLoop
        simp only [e, bind, Except.bind]
        rfl
      exact ⟨0, d, [], by omega, rfl, h1, h2, h3.imp id fun h => ⟨by omega, h⟩, fun h => absurd h (by rw [hf n]; decide),
        fun _ => ⟨by omega, hf 0⟩⟩
    | ok q =>
      obtain ⟨d1, h1, s1⟩ := q
      obtain ⟨k, d', hs, k1, k2, k3, k4, k5, k6, k7⟩ := loopLeft_prefix (cfg := cfg) n d1 s1
      have hs' : ∀ m, (decodeLoop cfg (m + 1) d s).isOk = (decodeLoop cfg m d1 s1).isOk := by
        intro m
        conv_lhs => unfold decodeLoop
        simp only [e, bind, Except.bind]
        cases decodeLoop cfg m d1 s1 <;> rfl
      refine ⟨k + 1, d', h1 :: hs, by omega, ?_, k3, k4, k5.imp id fun h => ⟨by omega, h.2⟩, fun h => ?_, fun h => ?_⟩
      · unfold decodeLoop
        simp only [e, bind, Except.bind, k2]
      · rw [hs'] at h
        rw [k6 h]
      · rw [hs'] at h
        rw [hs']
        exact ⟨by have := (k7 h).1; omega, (k7 h).2⟩

theorem decodeLoop_sum {cfg : Cfg} : ∀ {n : Nat} {d : Dec} {s : List Nat} {d' : Dec} {hs : List Hdr},
    d.size = valueSum d.headers → decodeLoop cfg n d s = .ok (d', hs) → d'.size = valueSum d'.headers
  | 0, d, s, d', hs, hd, h => by cases h; exact hd
  | n + 1, d, s, d', hs, hd, h => by
    unfold decodeLoop at h
    cases e : decodeHeader cfg d s with
    | error e' => simp [e, bind, Except.bind] at h
    | ok q =>
      obtain ⟨d1, h1, s1⟩ := q
      simp only [e, bind, Except.bind] at h
      cases e2 : decodeLoop cfg n d1 s1 with
      | error e' => simp [e2] at h
      | ok q =>
        obtain ⟨d2, hs2⟩ := q
        simp only [e2, Except.ok.injEq, Prod.mk.injEq] at h
        rw [← h.1]
        exact decodeLoop_sum (decodeHeader_sum hd e) e2

theorem decodeLeft_sum {cfg : Cfg} {d : Dec} (f : List Nat) (hd : d.size = valueSum d.headers) :
    (decodeLeft cfg d f).size = valueSum (decodeLeft cfg d f).headers := by
  unfold decodeLeft
  cases readByte (f.drop 8) with
  | error e => exact hd
  | ok q =>
    obtain ⟨nb, s⟩ := q
    simp only
    obtain ⟨k, d', hs, _, k2, k3, k4, _⟩ := loopLeft_prefix (cfg := cfg) nb d s
    rw [k3, k4]
    exact decodeLoop_sum hd k2

theorem loopLeft_shut {cfg : Cfg} {d : Dec} (h : cfg.maxSize < d.size) (n : Nat) (s : List Nat) :
    loopLeft cfg n d s = d ∧ decodeLoop cfg n d s = if n = 0 then .ok (d, []) else .error .standard := by
  cases n with
  | zero => exact ⟨rfl, rfl⟩
  | succ n =>
    have e : decodeHeader cfg d s = .error .standard := by unfold decodeHeader; rw [if_pos h]
    constructor
    · unfold loopLeft
      rw [e]
      simp only
      unfold headerLeft
      rw [e]
      simp only [if_pos h]
    · unfold decodeLoop
      simp only [e, bind, Except.bind]
      simp

theorem loop_length {cfg : Cfg} : ∀ {n : Nat} {d : Dec} {s : List Nat} {d' : Dec} {hs : List Hdr},
    decodeLoop cfg n d s = .ok (d', hs) → hs.length = n
  | 0, d, s, d', hs, h => by cases h; rfl
  | n + 1, d, s, d', hs, h => by
    unfold decodeLoop at h
    cases e : decodeHeader cfg d s with
    | error e' => simp [e, bind, Except.bind] at h
    | ok q =>
      obtain ⟨d1, h1, s1⟩ := q
      simp only [e, bind, Except.bind] at h
      cases e2 : decodeLoop cfg n d1 s1 with
      | error e' => simp [e2] at h
      | ok q =>
        obtain ⟨d2, hs2⟩ := q
        simp only [e2, Except.ok.injEq, Prod.mk.injEq] at h
        rw [← h.2, List.length_cons, loop_length e2]

/-- Names are only added at the end. -/
def Longer (d d' : Dec) : Prop := ∃ l, d'.names = d.names ++ l

theorem Longer.refl (d : Dec) : Longer d d := ⟨[], by simp⟩

theorem Longer.trans {a b c : Dec} (h1 : Longer a b) (h2 : Longer b c) : Longer a c := by
  obtain ⟨x, hx⟩ := h1
  obtain ⟨y, hy⟩ := h2
  exact ⟨x ++ y, by rw [hy, hx, List.append_assoc]⟩

theorem decodeIndexing_names {d d' : Dec} {sub inc : Bool} {ref : Nat} {h : Hdr} (e : decodeIndexing d sub inc ref h = .ok d') :
    d'.names = d.names := by
  unfold decodeIndexing at e
  cases sub with
  | true =>
    cases hi : item d.headers ref with
    | error e' => simp [hi, bind, Except.bind] at e
    | ok old =>
      simp only [hi, bind, Except.bind, if_true, Except.ok.injEq] at e
      subst e
      rfl
  | false =>
    cases inc <;> simp only [Bool.false_eq_true, if_false, if_true, Except.ok.injEq] at e <;> subst e <;> rfl

theorem valuePart_names {cfg : Cfg} {b0 : Nat} {sub inc : Bool} {d d' : Dec} {name : Str} {s s' : List Nat} {h : Hdr}
    (e : valuePart cfg b0 sub inc d name s = .ok (d', h, s')) : d'.names = d.names := by
  have tail : ∀ ref r, (do
        let (value, s) ← readString cfg r
        let d ← decodeIndexing d sub inc ref (name, value)
        .ok (d, (name, value), s) : Py (Dec × Hdr × List Nat)) = .ok (d', h, s') → d'.names = d.names := by
    intro ref r e
    cases h1 : readString cfg r with
    | error e' => simp [h1, bind, Except.bind] at e
    | ok q =>
      obtain ⟨v, r'⟩ := q
      simp only [h1, bind, Except.bind] at e
      cases h2 : decodeIndexing d sub inc ref (name, v) with
      | error e' => simp [h2] at e
      | ok d1 =>
        simp only [h2, Except.ok.injEq, Prod.mk.injEq] at e
        rw [← e.1]
        exact decodeIndexing_names h2
  unfold valuePart at e
  cases sub with
  | false => exact tail 0 s e
  | true =>
    simp only [if_true] at e
    cases h1 : readInteger b0 0 s with
    | error e' => simp [h1, bind, Except.bind] at e
    | ok q =>
      obtain ⟨i, r⟩ := q
      simp only [h1, bind, Except.bind] at e
      exact tail i r e

theorem decodeNew_longer {cfg : Cfg} {d d' : Dec} {b0 : Nat} {s s' : List Nat} {h : Hdr}
    (e : decodeNew cfg d b0 s = .ok (d', h, s')) : Longer d d' := by
  unfold decodeNew at e
  generalize (b0 &&& 0x30 == 0x20) = inc at e
  generalize (b0 &&& 0x30 == 0x30) = sub at e
  simp only at e
  generalize (if inc || sub then 4 else 5) = pb at e
  by_cases hb : b0 &&& 0x40 ≠ 0
  · rw [if_pos hb] at e
    cases h1 : readInteger b0 pb s with
    | error e' => simp [h1, bind, Except.bind] at e
    | ok q =>
      obtain ⟨ref, s1⟩ := q
      simp only [h1, bind, Except.bind] at e
      cases h2 : item d.headers ref with
      | error e' => simp [h2] at e
      | ok old =>
        simp only [h2] at e
        cases h3 : readInteger b0 0 s1 with
        | error e' => simp [h3] at e
        | ok q =>
          obtain ⟨pl, s2⟩ := q
          simp only [h3] at e
          cases h4 : readString cfg s2 with
          | error e' => simp [h4] at e
          | ok q =>
            obtain ⟨v, s3⟩ := q
            simp only [h4] at e
            cases h5 : decodeIndexing d sub inc ref (old.1, old.2.take pl ++ v) with
            | error e' => simp [h5] at e
            | ok d1 =>
              simp only [h5, Except.ok.injEq, Prod.mk.injEq] at e
              rw [← e.1]
              exact ⟨[], by rw [decodeIndexing_names h5]; simp⟩
  · rw [if_neg hb] at e
    have un : (do
        let (d, name, s) ← decodeName cfg d b0 pb s
        let (ref, s) ← if sub then readInteger b0 0 s else .ok (0, s)
        let (value, s) ← readString cfg s
        let d ← decodeIndexing d sub inc ref (name, value)
        .ok (d, (name, value), s) : Py (Dec × Hdr × List Nat)) = (do
        let (d, name, s) ← decodeName cfg d b0 pb s
        valuePart cfg b0 sub inc d name s) := rfl
    rw [un] at e
    cases h1 : decodeName cfg d b0 pb s with
    | error e' => simp [h1, bind, Except.bind] at e
    | ok q =>
      obtain ⟨d1, name, s1⟩ := q
      simp only [h1, bind, Except.bind] at e
      obtain ⟨_, _, k⟩ := decodeName_keeps h1
      have hv := valuePart_names e
      rcases k with k | k
      · exact ⟨[], by rw [hv, k]; simp⟩
      · exact ⟨[name], by rw [hv, k]⟩

theorem decodeHeader_longer {cfg : Cfg} {d d' : Dec} {s s' : List Nat} {h : Hdr} (e : decodeHeader cfg d s = .ok (d', h, s')) :
    Longer d d' := by
  unfold decodeHeader at e
  by_cases hm : d.size > cfg.maxSize
  · simp [hm] at e
  · rw [if_neg hm] at e
    cases h1 : readByte s with
    | error e' => simp [h1, bind, Except.bind] at e
    | ok q =>
      obtain ⟨b0, s1⟩ := q
      simp only [h1, bind, Except.bind] at e
      by_cases hb : b0 &&& 0x80 ≠ 0
      · rw [if_pos hb] at e
        cases h2 : decodeIndexed d b0 s1 with
        | error e' => simp [h2] at e
        | ok q =>
          obtain ⟨h', s2⟩ := q
          simp only [h2, Except.ok.injEq, Prod.mk.injEq] at e
          rw [← e.1]
          exact .refl d
      · rw [if_neg hb] at e
        exact decodeNew_longer e

theorem loopLeft_longer {cfg : Cfg} : ∀ (n : Nat) (d : Dec) (s : List Nat), Longer d (loopLeft cfg n d s)
  | 0, d, s => .refl d
  | n + 1, d, s => by
    unfold loopLeft
    cases e : decodeHeader cfg d s with
    | error e' =>
      obtain ⟨_, _, h | ⟨name, h⟩⟩ := headerLeft_keeps e
      · exact ⟨[], by simp only [h, List.append_nil]⟩
      · exact ⟨[name], h⟩
    | ok q => exact (decodeHeader_longer e).trans (loopLeft_longer n q.1 q.2.2)

end Verif.HeaderDiff
