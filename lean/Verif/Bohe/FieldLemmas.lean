import Verif.Bohe.Model
import Verif.Bohe.Spec
import Verif.Text.MiscLemmas
import Verif.PyLemmas
import Mathlib.Tactic.IntervalCases
import Mathlib.Data.List.Forall2
import Mathlib.Data.List.TakeWhile
import Mathlib.Data.List.Induction
/-
bohe's field encoders: lemmas.
-/
namespace Verif.Bohe
open Verif Verif.Text Verif.Text.Spec Verif.Bohe.Spec

theorem readLeb_uvarint (v : Int) (rest : List Nat) : readLeb (uvarint v ++ rest) = some ((max 0 v).toNat, rest) :=
  uvarintLoop_read _ _ (Nat.lt_succ_self _) rest

theorem readLeb_nat (n : Nat) (rest : List Nat) : readLeb (uvarint n ++ rest) = some (n, rest) := by
  rw [readLeb_uvarint]
  simp

theorem readBytes_append (s rest : List Nat) : readBytes s.length (s ++ rest) = some (s, rest) := by
  simp [readBytes]

theorem readField_append (s rest : List Nat) : readField (uvarint s.length ++ (s ++ rest)) = some (s, rest) := by
  simp [readField, readLeb_nat, readBytes_append]

theorem packH_ok {n : Nat} {b : List Nat} (h : packH n = .ok b) : n < 65536 ∧ b = [n / 256, n % 256] := by
  unfold packH at h
  split at h
  · cases h; exact ⟨by assumption, rfl⟩
  · cases h

theorem readField16_append {s b : List Nat} (h : packH s.length = .ok b) (rest : List Nat) :
    readField16 (b ++ (s ++ rest)) = some (s, rest) := by
  obtain ⟨-, rfl⟩ := packH_ok h
  simp only [List.cons_append, List.nil_append, readField16]
  rw [show 256 * (s.length / 256) + s.length % 256 = s.length by omega]
  exact readBytes_append s rest

theorem uvarint_ne_nil (v : Int) : uvarint v ≠ [] := by simp [uvarint, uvarintLoop]

theorem uvarint_pos (v : Int) : 0 < (uvarint v).length := List.length_pos_iff.2 (uvarint_ne_nil v)

/-! ### attempt_decode -/

theorem hexVal_hexDigit {n : Nat} (h : n < 16) : hexVal (hexDigit n) = some n := by
  interval_cases n <;> decide

theorem isHex_hex (s : Str) (hs : ∀ c ∈ s, c < 256) : isHex (hex s) = true := by
  induction s with
  | nil => rfl
  | cons c s ih =>
    have hc := hs c (by simp)
    have : hex (c :: s) = hexDigit (c / 16) :: hexDigit (c % 16) :: hex s := rfl
    rw [this, isHex, hexVal_hexDigit (by omega), hexVal_hexDigit (by omega), ih fun x hx => hs x (by simp [hx])]
    rfl

theorem unhex_hex (s : Str) (hs : ∀ c ∈ s, c < 256) : unhex (hex s) = .ok s := by
  induction s with
  | nil => rfl
  | cons c s ih =>
    have hc := hs c (by simp)
    have : hex (c :: s) = hexDigit (c / 16) :: hexDigit (c % 16) :: hex s := rfl
    rw [this, unhex, hexVal_hexDigit (by omega), hexVal_hexDigit (by omega), ih fun x hx => hs x (by simp [hx])]
    simp only [Except.map]
    rw [show 16 * (c / 16) + c % 16 = c by omega]

theorem b64Val_b64Digit {n : Nat} (h : n < 64) : b64Val (b64Digit n) = some n := by
  interval_cases n <;> decide

theorem b64Val_eq : b64Val 61 = none := by decide

theorem isB64_b64 (s : Str) (hs : ∀ c ∈ s, c < 256) : isB64 (b64 s) = true := by
  induction s using b64.induct with
  | case1 => rfl
  | case2 a =>
    have ha := hs a (by simp)
    simp [b64, isB64, b64Val_b64Digit (show a / 4 < 64 by omega), b64Val_b64Digit (show 16 * (a % 4) < 64 by omega), b64Val_eq]
  | case3 a b =>
    have ha := hs a (by simp)
    have hb := hs b (by simp)
    simp [b64, isB64, b64Val_b64Digit (show a / 4 < 64 by omega), b64Val_b64Digit (show 16 * (a % 4) + b / 16 < 64 by omega),
      b64Val_b64Digit (show 4 * (b % 16) < 64 by omega), b64Val_eq]
  | case4 a b c s ih =>
    have ha := hs a (by simp)
    have hb := hs b (by simp)
    have hc := hs c (by simp)
    simp [b64, isB64, b64Val_b64Digit (show a / 4 < 64 by omega), b64Val_b64Digit (show 16 * (a % 4) + b / 16 < 64 by omega),
      b64Val_b64Digit (show 4 * (b % 16) + c / 64 < 64 by omega), b64Val_b64Digit (show c % 64 < 64 by omega),
      ih fun x hx => hs x (by simp [hx])]

theorem unb64_b64 (s : Str) (hs : ∀ c ∈ s, c < 256) : unb64 (b64 s) = s := by
  induction s using b64.induct with
  | case1 => rfl
  | case2 a =>
    have ha := hs a (by simp)
    simp only [b64, unb64, b64Val_b64Digit (show a / 4 < 64 by omega), b64Val_b64Digit (show 16 * (a % 4) < 64 by omega), b64Val_eq]
    simp only [List.cons.injEq, and_true]
    omega
  | case3 a b =>
    have ha := hs a (by simp)
    have hb := hs b (by simp)
    simp only [b64, unb64, b64Val_b64Digit (show a / 4 < 64 by omega), b64Val_b64Digit (show 16 * (a % 4) + b / 16 < 64 by omega),
      b64Val_b64Digit (show 4 * (b % 16) < 64 by omega), b64Val_eq]
    simp only [List.cons.injEq, and_true]
    omega
  | case4 a b c s ih =>
    have ha := hs a (by simp)
    have hb := hs b (by simp)
    have hc := hs c (by simp)
    simp only [b64, unb64, b64Val_b64Digit (show a / 4 < 64 by omega), b64Val_b64Digit (show 16 * (a % 4) + b / 16 < 64 by omega),
      b64Val_b64Digit (show 4 * (b % 16) + c / 64 < 64 by omega), b64Val_b64Digit (show c % 64 < 64 by omega),
      ih fun x hx => hs x (by simp [hx])]
    simp only [List.cons.injEq, and_true]
    omega

/-- The hexadecimal digits. -/
theorem hexVal_some (c : Nat) : (hexVal c).isSome = true ↔ c ∈ b!"0123456789abcdefABCDEF" := by
  unfold hexVal
  split
  · simp; omega
  · split
    · simp; omega
    · split
      · simp; omega
      · simp; omega

theorem unhex_isHex (v : Str) (h : isHex v = true) : (∃ w, unhex v = .ok w) ∨ (unhex v = .error .type ∧
    ∃ u, v = u ++ [10] ∧ u.length % 2 = 0 ∧ ∀ c ∈ u, (hexVal c).isSome = true) := by
  induction v using isHex.induct with
  | case1 => exact .inl ⟨[], rfl⟩
  | case2 c =>
    simp only [isHex, beq_iff_eq] at h
    subst h
    exact .inr ⟨rfl, [], rfl, rfl, by simp⟩
  | case3 a b rest ih =>
    simp only [isHex, Bool.and_eq_true] at h
    obtain ⟨⟨ha, hb⟩, hr⟩ := h
    obtain ⟨x, hx⟩ := Option.isSome_iff_exists.1 ha
    obtain ⟨y, hy⟩ := Option.isSome_iff_exists.1 hb
    rcases ih hr with ⟨w, e⟩ | ⟨e, u, rfl, hl, hu⟩
    · exact .inl ⟨(16 * x + y) :: w, by simp [unhex, hx, hy, e, Except.map]⟩
    · refine .inr ⟨by simp [unhex, hx, hy, e, Except.map], a :: b :: u, rfl, by simp; omega, ?_⟩
      intro c hc
      rcases List.mem_cons.1 hc with rfl | hc
      · exact ha
      · rcases List.mem_cons.1 hc with rfl | hc
        · exact hb
        · exact hu c hc

theorem isHex_newline (u : Str) (hl : u.length % 2 = 0) (hu : ∀ c ∈ u, (hexVal c).isSome = true) :
    isHex (u ++ [10]) = true ∧ unhex (u ++ [10]) = .error .type := by
  induction u using isHex.induct with
  | case1 => exact ⟨rfl, rfl⟩
  | case2 c => simp at hl
  | case3 a b rest ih =>
    obtain ⟨h1, h2⟩ := ih (by simp at hl; omega) fun c hc => hu c (by simp [hc])
    have ha := hu a (by simp)
    have hb := hu b (by simp)
    obtain ⟨x, hx⟩ := Option.isSome_iff_exists.1 ha
    obtain ⟨y, hy⟩ := Option.isSome_iff_exists.1 hb
    simp [isHex, unhex, hx, hy, h1, h2, Except.map]

theorem unhex_len (v : Str) : ∀ w, unhex v = .ok w → 2 * w.length = v.length := by
  induction v using isHex.induct with
  | case1 => intro w h; cases h; rfl
  | case2 c => intro w h; cases h
  | case3 a b rest ih =>
    intro w h
    simp only [unhex] at h
    split at h
    · cases hr : unhex rest with
      | error e => rw [hr] at h; cases h
      | ok w' =>
        rw [hr] at h
        cases h
        have := ih w' hr
        simp only [List.length_cons]
        omega
    · cases h

theorem unb64_len (v : Str) : (unb64 v).length ≤ v.length := by
  induction v using unb64.induct with
  | case1 a b c d rest w x y z h1 h2 h3 h4 ih =>
    simp only [unb64, h1, h2, h3, h4, List.length_cons]
    omega
  | case2 a b c d rest w x y h1 h2 h3 h4 => simp [unb64, h1, h2, h3, h4]
  | case3 a b c d rest w x h3 h2 h1 => simp [unb64, h1, h2, h3]
  | case4 a b c d rest o1 o2 o3 => simp [unb64]
  | case5 v h =>
    unfold unb64
    split
    · rename_i a b c d rest; exact absurd rfl (h a b c d rest)
    · simp

/-! ### Cookies -/

/-- What is sent of a cookie's value. -/
def CookieValue (v : Option Str) (w : Str) : Prop :=
  match v with
  | some v => attemptDecode v = .ok w
  | none => w = []

theorem encCookieLoop_read (items : List (Str × Option Str)) : ∀ s, encCookieLoop items = .ok s →
    ∃ ws, List.Forall₂ (fun p w => CookieValue p.2 w) items ws ∧
      ∀ fuel, s.length ≤ fuel → readMany readCookie fuel s = some (List.zipWith (fun p w => (p.1, w)) items ws) := by
  induction items with
  | nil =>
    intro s h
    cases h
    exact ⟨[], .nil, fun fuel _ => by cases fuel <;> rfl⟩
  | cons p items ih =>
    obtain ⟨k, v⟩ := p
    intro s h
    have key : ∃ w s', CookieValue v w ∧ encCookieLoop items = .ok s' ∧
        s = b!"_" ++ uvarint k.length ++ k ++ (uvarint w.length ++ w) ++ s' := by
      cases v with
      | none =>
        simp only [encCookieLoop, bind, Except.bind] at h
        cases hs : encCookieLoop items with
        | error e => rw [hs] at h; cases h
        | ok s' =>
          rw [hs] at h
          cases h
          exact ⟨[], s', rfl, rfl, by simp⟩
      | some v =>
        simp only [encCookieLoop, bind, Except.bind] at h
        cases hv : attemptDecode v with
        | error e => rw [hv] at h; cases h
        | ok w =>
          rw [hv] at h
          simp only [pure, Except.pure] at h
          cases hs : encCookieLoop items with
          | error e => rw [hs] at h; cases h
          | ok s' =>
            rw [hs] at h
            cases h
            exact ⟨w, s', hv, rfl, rfl⟩
    obtain ⟨w, s', hw, hs', rfl⟩ := key
    obtain ⟨ws, hf, hr⟩ := ih s' hs'
    refine ⟨w :: ws, .cons hw hf, fun fuel hl => ?_⟩
    simp only [List.cons_append, List.nil_append, List.append_assoc, List.length_cons, List.length_append] at hl ⊢
    obtain ⟨fuel, rfl⟩ : ∃ f, fuel = f + 1 := ⟨fuel - 1, by omega⟩
    rw [readMany, readCookie, readField_append]
    simp only [Option.bind_some]
    rw [readField_append]
    simp only [Option.map_some, Option.bind_some]
    rw [hr fuel (by omega)]
    rfl

theorem encMorsel_ok {L : Libs} {m : Morsel} {s : Str} (h : encMorsel L m = .ok s) :
    ∃ w p d a, attemptDecode m.value = .ok w ∧ packH m.path.length = .ok p ∧ packH m.domain.length = .ok d ∧
      (if m.maxAge = [] then .ok (encDate L m.expires) else encUvarint L.int m.maxAge) = .ok a ∧
      s = b!"." ++ (uvarint m.name.length ++ (m.name ++ (uvarint w.length ++ (w ++ (p ++ (m.path ++ (d ++ (m.domain ++ a)))))))) := by
  simp only [encMorsel, bind, Except.bind] at h
  cases hw : attemptDecode m.value with
  | error e => rw [hw] at h; cases h
  | ok w =>
    rw [hw] at h
    cases hp : packH m.path.length with
    | error e => rw [hp] at h; cases h
    | ok p =>
      rw [hp] at h
      cases hd : packH m.domain.length with
      | error e => rw [hd] at h; cases h
      | ok d =>
        rw [hd] at h
        have hif : encAge L m =
            (if m.maxAge = [] then .ok (encDate L m.expires) else encUvarint L.int m.maxAge) := by
          unfold encAge
          cases m.maxAge <;> simp
        rw [hif] at h
        cases ha : (if m.maxAge = [] then (.ok (encDate L m.expires) : Py Str) else encUvarint L.int m.maxAge) with
        | error e => rw [ha] at h; cases h
        | ok a =>
          rw [ha] at h
          simp only [pure, Except.pure, Except.ok.injEq] at h
          refine ⟨w, p, d, a, rfl, rfl, rfl, rfl, ?_⟩
          rw [← h]
          simp

/-- The number sent with a cookie. -/
def cookieTime (L : Libs) (m : Morsel) : Option Nat :=
  if m.maxAge = [] then
    some (match L.date m.expires, L.int m.expires with
      | .ok t, _ => (t - newEpoch).toNat
      | .error _, .ok n => n.toNat
      | .error _, .error _ => 0)
  else
    match L.int m.maxAge with
    | .ok n => some n.toNat
    | .error _ => none

theorem encDate_read (L : Libs) (v : Str) (rest : List Nat) : readLeb (encDate L v ++ rest) =
    some (match L.date v, L.int v with
      | .ok t, _ => (t - newEpoch).toNat
      | .error _, .ok n => n.toNat
      | .error _, .error _ => 0, rest) := by
  unfold encDate
  cases L.date v with
  | ok t =>
    simp only [readLeb_uvarint]
    congr 2
    omega
  | error e =>
    cases L.int v with
    | ok n =>
      simp only [readLeb_uvarint]
      congr 2
      omega
    | error e' => simp only [readLeb_uvarint]; rfl

theorem encUvarint_read {int : Str → Py Int} {v s : Str} (h0 : 0 ∉ v) (hne : v ≠ []) (h : encUvarint int v = .ok s) :
    ∃ n, int v = .ok n ∧ ∀ rest, readLeb (s ++ rest) = some (n.toNat, rest) := by
  unfold encUvarint at h
  rw [if_neg hne, splitOn_noSep h0] at h
  simp only [List.mapM_cons, List.mapM_nil, bind, Except.bind] at h
  cases hn : int v with
  | error e => rw [hn] at h; cases h
  | ok n =>
    rw [hn] at h
    simp only [pure, Except.pure, Except.ok.injEq] at h
    refine ⟨n, rfl, fun rest => ?_⟩
    rw [← h]
    simp only [List.flatMap_cons, List.flatMap_nil, List.append_nil, readLeb_uvarint]
    congr 2
    omega

/-- The cookie as it is sent. -/
def SentAs (L : Libs) (m : Morsel) (c : Cookie) : Prop :=
  c.name = m.name ∧ attemptDecode m.value = .ok c.value ∧ c.path = m.path ∧ c.domain = m.domain ∧
    cookieTime L m = some c.time

theorem encMorsel_read {L : Libs} {m : Morsel} {s : Str} (h0 : 0 ∉ m.maxAge) (h : encMorsel L m = .ok s) :
    ∃ c, SentAs L m c ∧ (∃ t, s = 46 :: t) ∧ ∀ rest, readSetCookie (s ++ rest) = some (c, rest) := by
  obtain ⟨w, p, d, a, hw, hp, hd, ha, rfl⟩ := encMorsel_ok h
  have ht : ∃ n, cookieTime L m = some n ∧ ∀ rest, readLeb (a ++ rest) = some (n, rest) := by
    unfold cookieTime
    split at ha
    · rename_i hm
      cases ha
      rw [if_pos hm]
      exact ⟨_, rfl, fun rest => encDate_read L m.expires rest⟩
    · rename_i hm
      rw [if_neg hm]
      obtain ⟨n, hn, hr⟩ := encUvarint_read h0 hm ha
      exact ⟨n.toNat, by rw [hn], hr⟩
  obtain ⟨n, hn, hr⟩ := ht
  refine ⟨⟨m.name, w, m.path, m.domain, n⟩, ⟨rfl, hw, rfl, rfl, hn⟩, ⟨_, rfl⟩, fun rest => ?_⟩
  simp only [List.cons_append, List.nil_append, List.append_assoc, readSetCookie]
  rw [readField_append]
  simp only [Option.bind_some]
  rw [readField_append]
  simp only [Option.bind_some]
  rw [readField16_append hp]
  simp only [Option.bind_some]
  rw [readField16_append hd]
  simp only [Option.bind_some]
  rw [hr]
  rfl

theorem encMorsels_read {L : Libs} (ms : List Morsel) (h0 : ∀ m ∈ ms, 0 ∉ m.maxAge) : ∀ s, encMorsels L ms = .ok s →
    ∃ cs, List.Forall₂ (SentAs L) ms cs ∧ ∀ rest rs fuel, s.length + rest.length ≤ fuel →
      (∀ f, rest.length ≤ f → readSetCookies f rest = some rs) → readSetCookies fuel (s ++ rest) = some (cs ++ rs) := by
  induction ms with
  | nil =>
    intro s h
    cases h
    exact ⟨[], .nil, fun rest rs fuel hl hr => hr fuel (by simpa using hl)⟩
  | cons m ms ih =>
    intro s h
    simp only [encMorsels, bind, Except.bind] at h
    cases ha : encMorsel L m with
    | error e => rw [ha] at h; cases h
    | ok a =>
      rw [ha] at h
      cases hb : encMorsels L ms with
      | error e => rw [hb] at h; cases h
      | ok b =>
        rw [hb] at h
        cases h
        obtain ⟨c, hc, ⟨t, rfl⟩, hr⟩ := encMorsel_read (h0 m (by simp)) ha
        obtain ⟨cs, hcs, hrs⟩ := ih (fun x hx => h0 x (by simp [hx])) b hb
        refine ⟨c :: cs, .cons hc hcs, fun rest rs fuel hl hrest => ?_⟩
        simp only [List.cons_append, List.length_cons, List.length_append] at hl
        obtain ⟨fuel, rfl⟩ : ∃ f, fuel = f + 1 := ⟨fuel - 1, by omega⟩
        have h1 := hr (b ++ rest)
        simp only [List.cons_append, List.append_assoc] at h1 ⊢
        rw [readSetCookies, h1]
        · simp only [Option.bind_some]
          rw [hrs rest rs fuel (by omega) hrest]
          rfl
        · simp

theorem encSetCookieLoop_read {L : Libs} (vs : List Str) (h0 : ∀ v ms, L.cookie v = .ok ms → ∀ m ∈ ms, 0 ∉ m.maxAge) :
    ∀ enc s, encSetCookieLoop L vs enc = .ok s →
    ∃ tail mss, s = enc ++ tail ∧
      List.Forall₂ (fun v ms => L.cookie (v.map fun c => if c = 91 ∨ c = 93 then 95 else c) = .ok ms) vs mss ∧
      ∃ cs, List.Forall₂ (SentAs L) mss.flatten cs ∧
        ∀ fuel, tail.length ≤ fuel → readSetCookies fuel tail = some cs := by
  induction vs with
  | nil =>
    intro enc s h
    cases h
    exact ⟨[], [], by simp, .nil, [], .nil, fun fuel _ => by cases fuel <;> rfl⟩
  | cons v vs ih =>
    intro enc s h
    simp only [encSetCookieLoop, bind, Except.bind] at h
    have hrep : List.map (fun c => if c = 91 then 95 else c) (List.map (fun c => if c = 93 then 95 else c) v) =
        v.map fun c => if c = 91 ∨ c = 93 then 95 else c := by
      rw [List.map_map]
      apply List.map_congr_left
      intro c _
      simp only [Function.comp]
      split <;> split <;> simp_all
    rw [hrep] at h
    cases hm : L.cookie (v.map fun c => if c = 91 ∨ c = 93 then 95 else c) with
    | error e => rw [hm] at h; cases h
    | ok ms =>
      rw [hm] at h
      cases hb : encMorsels L ms with
      | error e => simp only [hb] at h; cases h
      | ok b =>
        simp only [hb] at h
        obtain ⟨tail, mss, rfl, hf, cs, hcs, hr⟩ := ih _ _ h
        obtain ⟨cs1, hcs1, hr1⟩ := encMorsels_read ms (h0 _ _ hm) b hb
        refine ⟨(if 0 < enc.length then [0] else []) ++ b ++ tail, ms :: mss, ?_, .cons hm hf, cs1 ++ cs,
          ?_, fun fuel hl => ?_⟩
        · split <;> simp
        · rw [List.flatten_cons]
          exact List.rel_append hcs1 hcs
        · have hbt : ∀ f, b.length + tail.length ≤ f → readSetCookies f (b ++ tail) = some (cs1 ++ cs) :=
            fun f hf => hr1 tail cs f hf hr
          split at hl
          · simp only [List.cons_append, List.nil_append, List.length_cons, List.length_append] at hl
            obtain ⟨fuel, rfl⟩ : ∃ f, fuel = f + 1 := ⟨fuel - 1, by omega⟩
            rename_i hpos
            rw [if_pos hpos, List.append_assoc, List.cons_append, List.nil_append, readSetCookies]
            exact hbt fuel (by omega)
          · rename_i hpos
            rw [if_neg hpos, List.nil_append]
            simp only [List.nil_append, List.length_append] at hl
            exact hbt fuel hl

/-! ### Cache-Control -/

theorem ccParts_eq (val : Str) : splitOn 44 (val.map fun c => if c = 0 then 44 else c) = ccParts val := by
  unfold ccParts
  induction val with
  | nil => rfl
  | cons x xs ih =>
    by_cases h0 : x = 0
    · subst h0
      simp only [List.map_cons, if_true, splitOn, ih, List.flatMap_cons]
      rfl
    · rw [List.map_cons, if_neg h0, splitOn, splitOn, if_neg h0, ih]
      cases hs : splitOn 0 xs with
      | nil => exact absurd hs (splitOn_ne_nil 0 xs)
      | cons p ps =>
        simp only [List.flatMap_cons, splitOn]
        by_cases h44 : x = 44
        · simp [h44]
        · simp only [h44, if_false]
          cases hp : splitOn 44 p with
          | nil => exact absurd hp (splitOn_ne_nil 44 p)
          | cons q qs => rfl

theorem dictOf_get {β : Type} (l : List (Str × β)) (m : Str) :
    (dictOf l).get? m = ((l.filter fun p => decide (p.1 = m)).getLast?).map (·.2) := by
  induction l using List.reverseRecOn with
  | nil => rfl
  | append_singleton l p ih =>
    unfold dictOf at ih ⊢
    rw [List.foldl_append, List.foldl_cons, List.foldl_nil, Dict.get?_set, List.filter_append]
    by_cases hp : p.1 = m
    · simp [hp]
    · rw [if_neg hp, ih]
      simp [hp]

theorem splitOnce_take (p : Str) : splitOnce 61 p =
    if 61 ∈ p then some (p.takeWhile (· ≠ 61), (p.dropWhile (· ≠ 61)).drop 1) else none := by
  induction p with
  | nil => rfl
  | cons x xs ih =>
    by_cases hx : x = 61
    · subst hx; simp [splitOnce]
    · rw [splitOnce, if_neg hx, ih]
      by_cases hm : 61 ∈ xs
      · simp [hm, hx]
      · simp [hm, hx, Ne.symm hx]

theorem getLast?_map_some {α β : Type} (f : α → β) (l : List α) : (l.map f).getLast? = l.getLast?.map f := by
  simp

theorem parse_get (val m : Str) : (parseCacheControl val).get? m = (directive val m).map fun d =>
    match d with
    | none => CcVal.one
    | some s => CcVal.arg s := by
  unfold parseCacheControl
  simp only [ccParts_eq]
  rw [dictOf_get, List.filter_append]
  generalize hP : ccParts val = P
  have hwo : ((P.filter fun p => (splitOnce 61 p).isNone).map fun p => (lower (stripWs p), CcVal.one)).filter
      (fun p => decide (p.1 = m)) = (P.filter fun p => decide (61 ∉ p ∧ ccName p = m)).map fun p => (lower (stripWs p), CcVal.one) := by
    clear hP
    induction P with
    | nil => rfl
    | cons p P ih =>
      by_cases h61 : 61 ∈ p
      · have : (splitOnce 61 p).isNone = false := by rw [splitOnce_take, if_pos h61]; rfl
        simp only [List.filter_cons, this, h61, not_true_eq_false, false_and, decide_false]
        simpa using ih
      · have h1 : (splitOnce 61 p).isNone = true := by rw [splitOnce_take, if_neg h61]; rfl
        have h2 : ccName p = lower (stripWs p) := by
          unfold ccName
          rw [List.takeWhile_eq_self_iff.2 (fun x hx => by
            have : x ≠ 61 := fun h => h61 (h ▸ hx)
            simpa using this)]
        simp only [List.filter_cons, h1, if_true, List.map_cons, h61, not_false_eq_true, true_and, h2]
        by_cases hm : lower (stripWs p) = m
        · simp only [hm, decide_true, if_true, List.map_cons, ih]
        · simp only [hm, decide_false]
          simpa using ih
  have hw : (P.filterMap fun p => (splitOnce 61 p).map fun (a, b) => (lower (stripWs a), CcVal.arg (lower (stripWs b)))).filter
      (fun p => decide (p.1 = m)) = (P.filter fun p => decide (61 ∈ p ∧ ccName p = m)).map fun p => (ccName p, CcVal.arg (ccArg p)) := by
    clear hP hwo
    induction P with
    | nil => rfl
    | cons p P ih =>
      rw [List.filterMap_cons, splitOnce_take]
      by_cases h61 : 61 ∈ p
      · simp only [h61, if_true, Option.map_some, List.filter_cons, true_and]
        have e1 : lower (stripWs (p.takeWhile (· ≠ 61))) = ccName p := rfl
        have e2 : lower (stripWs ((p.dropWhile (· ≠ 61)).drop 1)) = ccArg p := rfl
        rw [e1, e2]
        by_cases hm : ccName p = m
        · simp only [hm, decide_true, if_true, List.map_cons, ih]
        · simp only [hm, decide_false]
          simpa using ih
      · simp only [h61, if_false, Option.map_none, false_and, decide_false, List.filter_cons]
        simpa using ih
  rw [hwo, hw]
  unfold directive
  rw [hP]
  by_cases hex : ∃ p ∈ P, 61 ∉ p ∧ ccName p = m
  · rw [if_pos hex]
    have hne : (P.filter fun p => decide (61 ∉ p ∧ ccName p = m)) ≠ [] := by
      obtain ⟨p, hp, h⟩ := hex
      exact List.ne_nil_of_mem (List.mem_filter.2 ⟨hp, by simpa using h⟩)
    rw [List.getLast?_append_of_ne_nil _ (by simpa using hne), List.getLast?_map]
    obtain ⟨p, hp⟩ := Option.isSome_iff_exists.1 (List.getLast?_isSome.2 hne)
    rw [hp]
    rfl
  · rw [if_neg hex]
    have hnil : (P.filter fun p => decide (61 ∉ p ∧ ccName p = m)) = [] := by
      rw [List.filter_eq_nil_iff]
      intro p hp
      simp only [decide_eq_true_eq]
      exact fun h => hex ⟨p, hp, h⟩
    rw [hnil, List.map_nil, List.append_nil, List.getLast?_map, Option.map_map, Option.map_map]
    rfl

end Verif.Bohe
