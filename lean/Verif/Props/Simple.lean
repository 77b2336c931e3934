import Verif.Text.ProcLemmas
import Verif.Text.DateLemmas
import Verif.Zlib.Stored
import Verif.Props.Text
/-
Property C104: the simple codec with its parameters, in particular "date" and "huffman".
-/
namespace Verif.Props
open Verif Verif.Zlib Verif.Text Verif.Text.Spec

/-- What is assumed of `int(value, 16)`: it reads what `"%x"` writes. -/
def ReadsHex (C : DateLib) : Prop := ∀ t, C.int16 (hexInt t) = some t

/-- What is assumed of `flush` of a decompressor that has read all: there is nothing left, and the object can be used
again (zlib's documentation advises against that). -/
def FlushOk {L : Lib} (ok : Ok L) (flush : L.U → Option (L.U × Str)) : Prop :=
  ∀ z u, ok.Paired z u → ∃ u', flush u = some (u', []) ∧ ok.Paired z u'

/-- What becomes of the value of a date header: a date is formatted anew, anything else that `int(value, 16)` can read
is taken for a time. -/
def arrives (C : DateLib) (v : Str) : Str :=
  match parseDate C v with
  | some t => (C.formatdate t).getD (hexInt t)
  | none =>
    match C.int16 v with
    | some t => (C.formatdate t).getD v
    | none => v

/-- The headers that are taken for dates. -/
def dateNames : List Str := [b!"date", b!"expires", b!"if-modified-since", b!"last-modified"]

theorem normValue_arrives {C : DateLib} (hC : ReadsHex C) {n : Str} (hn : n ∈ dateNames) (v : Str) :
    normValue (some (dates C)) n v = arrives C v := by
  have hn' : n ∈ dateHdrs := by
    have : ∀ n ∈ dateNames, n ∈ dateHdrs := by decide
    exact this n hn
  simp only [normValue, readValue, sendValue, if_pos hn', dates, arrives]
  cases hp : parseDate C v with
  | none =>
    simp only [Option.map_none, Option.getD_none]
    cases C.int16 v <;> rfl
  | some t => simp [hC t]

theorem norm_spec {C : DateLib} (hC : ReadsHex C) {L : Lib} {p : SimpleP L} {h out : Dict Str Str}
    (hs : Same (normAll (p.dates C) h) out) : out.WF ∧ ∀ n, n ∉ [b!":status-text", b!":version"] →
      out.get? n = (h.get? n).map fun v => if p.date = true ∧ n ∈ dateNames then arrives C v else v := by
  refine ⟨hs.1, fun n hn => ?_⟩
  rw [hs.2 n hn, get?_normAll]
  congr 1
  funext v
  unfold SimpleP.dates
  by_cases hd : p.date = true
  · rw [if_pos hd]
    by_cases hn' : n ∈ dateNames
    · rw [if_pos ⟨hd, hn'⟩, normValue_arrives hC hn']
    · have : n ∉ dateHdrs := by
        have h' : ∀ n ∈ dateHdrs, n ∈ dateNames := by decide
        exact fun hc => hn' (h' n hc)
      rw [if_neg fun hc => hn' hc.2, (norm_other this _ v).2]
  · rw [if_neg hd, if_neg fun hc => hd hc.1]
    rfl

theorem new_spec {int : Str → Option Int} {L : Lib} (ok : Ok L) {isRequest : Bool} {params : List Str} {p : SimpleP L}
    (hp : simpleNew int L isRequest params = .ok p) : InStep ok p ∧ (∃ n, p.st = simpleInit n (decide (b!"seven" ∈ params)) isRequest) ∧
      p.date = decide (b!"date" ∈ params) := by
  unfold simpleNew at hp
  obtain ⟨z, hz, hz'⟩ := ok.new_ok 15 (by decide) (by decide)
  by_cases h7 : b!"seven" ∈ params
  · rw [if_pos h7] at hp
    simp only [bind, Except.bind] at hp
    split at hp
    · cases hp
    · cases hp
      exact ⟨by intro z u hc; (cases hc), ⟨_, rfl⟩, rfl⟩
  · rw [if_neg h7] at hp
    by_cases hh : b!"huffman" ∈ params
    · rw [if_pos hh, hz] at hp
      simp only [bind, Except.bind] at hp
      split at hp
      · cases hp
      · cases hp
        refine ⟨fun z' u hc => ?_, ⟨_, rfl⟩, rfl⟩
        cases hc
        exact ⟨hz', by simp [simpleInit, h7]⟩
    · rw [if_neg hh] at hp
      simp only [bind, Except.bind] at hp
      split at hp
      · cases hp
      · cases hp
        exact ⟨by intro z u hc; (cases hc), ⟨_, rfl⟩, rfl⟩

/-- C104: a Processor is made exactly if `int` can read the last `max_entries=…`, or the default where there is none. -/
theorem C104_made (int : Str → Option Int) (L : Lib) (ok : Ok L) (isRequest : Bool) (params : List Str) :
    (∃ p, simpleNew int L isRequest params = .ok p) ↔
      ∃ v n, int v = some n ∧ (LastValue params b!"max_entries" v ∨
        (v = b!"9999999999" ∧ ∀ q ∈ params, ∀ w, q ≠ b!"max_entries" ++ [61] ++ w)) := by
  have h61 : (61 : Nat) ∉ b!"max_entries" := by decide
  have key : (∃ p, simpleNew int L isRequest params = .ok p) ↔
      ∃ n, int (((paramDict params).get? b!"max_entries").getD b!"9999999999") = some n := by
    obtain ⟨z, hz, hz'⟩ := ok.new_ok 15 (by decide) (by decide)
    unfold simpleNew
    cases hi : int (((paramDict params).get? b!"max_entries").getD b!"9999999999") with
    | none => simp [bind, Except.bind, hz]
    | some n =>
      simp only [bind, Except.bind, hz]
      refine ⟨fun _ => ⟨n, rfl⟩, fun _ => ?_⟩
      split
      · exact ⟨_, rfl⟩
      · split <;> exact ⟨_, rfl⟩
  rw [key]
  constructor
  · rintro ⟨n, hn⟩
    refine ⟨_, n, hn, ?_⟩
    cases hg : (paramDict params).get? b!"max_entries" with
    | some v => exact .inl ((paramDict_get _ h61 params v).1 hg)
    | none =>
      refine .inr ⟨rfl, fun q hq w e => ?_⟩
      obtain ⟨v, hv⟩ := lastValue_exists h61 params ⟨q, hq, w, e⟩
      rw [(paramDict_get _ h61 _ v).2 hv] at hg
      cases hg
  · rintro ⟨v, n, hn, h | ⟨rfl, h⟩⟩
    · exact ⟨n, by rw [(paramDict_get _ h61 params v).2 h]; exact hn⟩
    · exact ⟨n, by rw [paramDict_none _ h61 params h]; exact hn⟩

/-- C104: what `parse_date` takes for a date, and its time: the library is asked for the year and the rest, and for the
time, with two-digit years between 1969 and 2068. -/
theorem C104_dates (C : DateLib) (v : Str) (t : Int) : parseDate C v = some t ↔
    DateText v ∧ ∃ y rest, C.parsedate v = some (y, rest) ∧ C.timegm (fullYear y, rest) = some t :=
  parseDate_iff C v t

/-- All three forms occur, the last with a line feed; a date with something else behind it is none. -/
example : DateText b!"Sun, 06 Nov 1994 08:49:37 GMT" ∧ DateText b!"Sunday, 06-Nov-94 08:49:37 GMT" ∧
    DateText b!"Sun Nov  6 08:49:37 1994\n" ∧ ¬ DateText b!"Sun, 06 Nov 1994 08:49:37 GMT+1" := by
  simp only [← dateMatch_iff]
  decide +kernel

/-- The last of two parameters counts. -/
example : LastValue [b!"max_entries=7", b!"date", b!"max_entries=x", b!"max_entries"] b!"max_entries" b!"x" := by
  rw [← paramDict_get _ (by decide)]
  decide +kernel

/-- C104: in every session, for every list of parameters, every date library and every zlib, with the limits of C44: the
headers arrive, apart from `:version` and `:status-text`; with "date", the values of the date headers arrive as `arrives`
says.  Missing: that `arrives` changes nothing (`C104_zero_false`, `C104_spelling_false`), and the limits of C44. -/
theorem C104_session_partial (int : Str → Option Int) (L : Lib) (ok : Ok L) (C : DateLib) (hC : ReadsHex C)
    (flush : L.U → Option (L.U × Str)) (hf : FlushOk ok flush) (ord : Dict Str Str → Dict Str Str) (hord : ∀ d, (ord d).Perm d)
    (isRequest : Bool) (params : List Str) (p : SimpleP L) (hp : simpleNew int L isRequest params = .ok p)
    (hs : List (Dict Str Str)) (hm : ∀ h ∈ hs, SimpleMsg isRequest h) (ha : b!"seven" ∈ params → ∀ h ∈ hs, Ascii h) :
    ∃ outs, procSession C flush ord p hs = .ok outs ∧
      List.Forall₂ (fun h out => out.WF ∧ ∀ n, n ∉ [b!":status-text", b!":version"] →
        out.get? n = (h.get? n).map fun v => if b!"date" ∈ params ∧ n ∈ dateNames then arrives C v else v) hs outs := by
  obtain ⟨h1, ⟨m, h2⟩, h3⟩ := new_spec ok hp
  obtain ⟨outs, h4, h5⟩ := procSession_spec ok C hf ord hord hs p h1
    (by rw [h2]; intro h; exact absurd h (by simp [simpleInit, truthy]))
    (by rw [h2]; exact hm) (by rw [h2]; intro h; exact ha (of_decide_eq_true h))
  refine ⟨outs, h4, h5.imp fun h out hho => ?_⟩
  have := norm_spec hC hho
  rw [h3] at this
  simpa only [decide_eq_true_eq] using this

/-- C104: which values of date headers arrive as they were sent: dates as `format_date` writes them, and what is neither a
date nor a hexadecimal number that stands for another text. -/
theorem C104_value_iff (C : DateLib) (v : Str) : arrives C v = v ↔
    match parseDate C v with
    | some t => C.formatdate t = some v
    | none => ∀ t w, C.int16 v = some t → C.formatdate t = some w → w = v := by
  unfold arrives
  cases hp : parseDate C v with
  | some t =>
    dsimp only
    cases hf : C.formatdate t with
    | some w => simp
    | none =>
      simp only [Option.getD_none, reduceCtorEq, iff_false]
      intro h
      have hmatch : dateMatch v = true := by
        by_contra hc
        simp [parseDate, hc] at hp
      have := dateMatch_space hmatch
      rw [← h] at this
      have := hexInt_chars t 32 this
      omega
  | none =>
    dsimp only
    cases hi : C.int16 v with
    | none => simp
    | some t =>
      dsimp only
      cases hf : C.formatdate t with
      | none =>
        simp only [Option.getD_none, true_iff, Option.some.injEq]
        rintro _ w rfl h
        rw [hf] at h; cases h
      | some w =>
        simp only [Option.getD_some, Option.some.injEq]
        constructor
        · rintro rfl _ w' rfl h
          rw [hf] at h; simpa using h.symm
        · intro h; exact h t w rfl hf

/-- C104: so a session whose date headers have only such values arrives unchanged. -/
theorem C104_exact_partial (int : Str → Option Int) (L : Lib) (ok : Ok L) (C : DateLib) (hC : ReadsHex C)
    (flush : L.U → Option (L.U × Str)) (hf : FlushOk ok flush) (ord : Dict Str Str → Dict Str Str) (hord : ∀ d, (ord d).Perm d)
    (isRequest : Bool) (params : List Str) (p : SimpleP L) (hp : simpleNew int L isRequest params = .ok p)
    (hs : List (Dict Str Str)) (hm : ∀ h ∈ hs, SimpleMsg isRequest h) (ha : b!"seven" ∈ params → ∀ h ∈ hs, Ascii h)
    (hd : b!"date" ∈ params → ∀ h ∈ hs, ∀ n ∈ dateNames, ∀ v, (n, v) ∈ h →
      (∃ t, parseDate C v = some t ∧ C.formatdate t = some v) ∨
      (parseDate C v = none ∧ ∀ t, C.int16 v = some t → C.formatdate t = none)) :
    ∃ outs, procSession C flush ord p hs = .ok outs ∧ List.Forall₂ Same hs outs := by
  obtain ⟨outs, h1, h2⟩ := C104_session_partial int L ok C hC flush hf ord hord isRequest params p hp hs hm ha
  refine ⟨outs, h1, ?_⟩
  clear h1
  clear ha hm
  induction h2 with
  | nil => exact .nil
  | @cons h out hs outs hho _ ih =>
    refine .cons ⟨hho.1, fun n hn => ?_⟩ (ih fun hd' x hx => hd hd' x (by simp [hx]))
    rw [hho.2 n hn]
    cases hg : h.get? n with
    | none => rfl
    | some v =>
      rw [Option.map_some]
      congr 1
      split
      · rename_i hc
        rw [C104_value_iff]
        rcases hd hc.1 h (by simp) n hc.2 v (Dict.get?_mem hg) with ⟨t, e1, e2⟩ | ⟨e1, e2⟩
        · rw [e1]; exact e2
        · rw [e1]
          intro t w e3 e4
          rw [e2 t e3] at e4
          cases e4
      · rfl

/-- C104 is false for two spellings of one time: at most one of them arrives as it was sent. -/
theorem C104_spelling_false (C : DateLib) (v w : Str) (hne : v ≠ w) (t : Int) (hv : parseDate C v = some t)
    (hw : parseDate C w = some t) : ¬ (arrives C v = v ∧ arrives C w = w) := by
  rw [C104_value_iff, C104_value_iff, hv, hw]
  rintro ⟨h1, h2⟩
  dsimp only at h1 h2
  rw [h1] at h2
  exact hne (by simpa using h2)

def zeroReq : Dict Str Str := [(b!":method", b!"GET"), (b!":path", b!"/"), (b!"if-modified-since", b!"0")]

theorem zeroReq_msg : SimpleMsg true zeroReq :=
  simpleMsg_check (by decide +kernel) b!"GET" b!"/" (by decide +kernel) (by decide +kernel)
      ⟨by decide, by decide⟩ ⟨by decide, by decide⟩ (by decide +kernel) (by decide +kernel) (by decide +kernel)

/-- C104 is false for the value `0`, with every date library that reads this number and writes the beginning of 1970: the
request comes back with a date in it. -/
theorem C104_zero_false (int : Str → Option Int) (L : Lib) (ok : Ok L) (C : DateLib) (hC : ReadsHex C)
    (flush : L.U → Option (L.U × Str)) (hf : FlushOk ok flush) (ord : Dict Str Str → Dict Str Str) (hord : ∀ d, (ord d).Perm d)
    (epoch : Str) (h0 : C.formatdate 0 = some epoch)
    (params : List Str) (hdate : b!"date" ∈ params) (p : SimpleP L) (hp : simpleNew int L true params = .ok p) :
    ∃ out, procSession C flush ord p [zeroReq] = .ok [out] ∧ out.get? b!"if-modified-since" = some epoch ∧
      zeroReq.get? b!"if-modified-since" = some b!"0" := by
  obtain ⟨outs, h1, h2⟩ := C104_session_partial int L ok C hC flush hf ord hord true params p hp [zeroReq]
    (by simpa using zeroReq_msg) (fun _ h hh => by
      rw [List.mem_singleton] at hh
      subst hh
      intro k v hkv
      have : ∀ kv ∈ zeroReq, (∀ c ∈ kv.1, c < 128) ∧ ∀ c ∈ kv.2, c < 128 := by decide
      exact this _ hkv)
  cases h2 with
  | cons hho htail =>
    rename_i out outs'
    cases htail
    refine ⟨out, h1, ?_, rfl⟩
    rw [hho.2 _ (by decide), show zeroReq.get? b!"if-modified-since" = some b!"0" from rfl, Option.map_some,
      if_pos ⟨hdate, by decide⟩]
    have hp0 : parseDate C b!"0" = none := by
      have : dateMatch b!"0" = false := by decide +kernel
      simp [parseDate, this]
    have hi : C.int16 b!"0" = some 0 := by
      have := hC 0
      have e : hexInt 0 = b!"0" := by decide +kernel
      rwa [e] at this
    simp [arrives, hp0, hi, h0]

/-! ### a library to try it with -/

def unhexDigit (c : Nat) : Option Nat :=
  if 48 ≤ c ∧ c ≤ 57 then some (c - 48) else if 97 ≤ c ∧ c ≤ 102 then some (c - 87) else none

def unhexNat (s : Str) : Option Nat := s.foldl (fun a c => a.bind fun n => (unhexDigit c).map fun d => 16 * n + d) (some 0)

def unhex : Str → Option Int
  | [] => none
  | 45 :: s => (unhexNat s).map fun n => -(n : Int)
  | s => (unhexNat s).map fun n => (n : Int)

theorem unhexNat_hexNat (n : Nat) : unhexNat (hexNat n) = some n := by
  have hd : ∀ d, d < 16 → unhexDigit (hexDigit d) = some d := by decide
  induction n using Nat.strongRecOn with
  | ind n ih =>
    unfold hexNat
    split
    · rename_i h
      simp [unhexNat, hd n h]
    · have := ih (n / 16) (by omega)
      simp only [unhexNat] at this ⊢
      rw [List.foldl_append, this]
      simp only [List.foldl_cons, List.foldl_nil, Option.bind_some, hd (n % 16) (Nat.mod_lt _ (by omega)), Option.map_some]
      congr 1
      omega

theorem hexNat_head (n : Nat) : ∃ c s, hexNat n = c :: s ∧ c ≠ 45 := by
  cases h : hexNat n with
  | nil =>
    unfold hexNat at h
    split at h <;> simp at h
  | cons c s =>
    refine ⟨c, s, rfl, ?_⟩
    have := hexNat_chars n c (by simp [h])
    omega

theorem unhex_hexInt (t : Int) : unhex (hexInt t) = some t := by
  cases t with
  | ofNat n =>
    obtain ⟨c, s, h, hc⟩ := hexNat_head n
    have := unhexNat_hexNat n
    simp only [hexInt]
    rw [h] at this ⊢
    unfold unhex
    split
    · simp_all
    · simp_all
    · rw [this]; rfl
  | negSucc n =>
    have := unhexNat_hexNat (n + 1)
    simp only [hexInt, unhex, this, Option.map_some]
    congr 1

/-- It knows one minute. -/
def minute : DateLib where
  parsedate v :=
    if v = b!"Thu, 01 Jan 1970 00:00:16 GMT" then some (1970, [16])
    else if v = b!"Thursday, 01-Jan-70 00:00:16 GMT" then some (70, [16])
    else none
  timegm d := if d.1 = 1970 then d.2.head? else none
  formatdate t := if t = 16 then some b!"Thu, 01 Jan 1970 00:00:16 GMT" else if t = 0 then some b!"Thu, 01 Jan 1970 00:00:00 GMT" else none
  int16 := unhex

example : ReadsHex minute := unhex_hexInt

/-- Stored blocks with a `flush` that does nothing. -/
example : FlushOk storedOk (fun u => some (u, [])) := fun _ u h => ⟨u, rfl, h⟩

def datedReq (v : Str) : Dict Str Str :=
  [(b!":method", b!"GET"), (b!":path", b!"/"), (b!"if-modified-since", v), (b!"expires", b!"never")]

/-- A request with a date is sent as hexadecimal, the second time as a reference. -/
example : (do
      let p ← simpleNew (fun _ => some 10) stored true [b!"date"]
      let (p, c1) ← procCompress minute id p (datedReq b!"Thursday, 01-Jan-70 00:00:16 GMT")
      let (p, out1) ← procDecompress minute (fun u => some (u, [])) id p c1
      let (p, c2) ← procCompress minute id p (datedReq b!"Thursday, 01-Jan-70 00:00:16 GMT")
      let (_, out2) ← procDecompress minute (fun u => some (u, [])) id p c2
      pure (c1, out1.get? b!"if-modified-since", c2, out2.get? b!"if-modified-since")) =
    .ok (b!"GET / H/2\nims:10\nx:never\n\n", some b!"Thu, 01 Jan 1970 00:00:16 GMT",
      b!"GET / H/2\nref:ims,x\n\n", some b!"Thu, 01 Jan 1970 00:00:16 GMT") := by decide +kernel

/-- The hypotheses of `C104_exact_partial` for a session with "date" and "huffman". -/
example : (∃ p, simpleNew (fun _ => some 10) stored true [b!"date", b!"huffman", b!"max_entries=10"] = .ok p) ∧
    SimpleMsg true (datedReq b!"Thu, 01 Jan 1970 00:00:16 GMT") ∧
    ∀ n ∈ dateNames, ∀ v, (n, v) ∈ datedReq b!"Thu, 01 Jan 1970 00:00:16 GMT" →
      (∃ t, parseDate minute v = some t ∧ minute.formatdate t = some v) ∨
      (parseDate minute v = none ∧ ∀ t, minute.int16 v = some t → minute.formatdate t = none) := by
  refine ⟨⟨_, rfl⟩, simpleMsg_check (by decide +kernel) b!"GET" b!"/" (by decide +kernel) (by decide +kernel)
      ⟨by decide, by decide⟩ ⟨by decide, by decide⟩ (by decide +kernel) (by decide +kernel) (by decide +kernel), ?_⟩
  intro n hn v hv
  simp only [datedReq, List.mem_cons, Prod.mk.injEq, List.not_mem_nil, or_false] at hv
  rcases hv with ⟨rfl, _⟩ | ⟨rfl, _⟩ | ⟨_, rfl⟩ | ⟨_, rfl⟩
  · exact absurd hn (by decide)
  · exact absurd hn (by decide)
  · exact .inl ⟨16, by decide +kernel, by decide +kernel⟩
  · exact .inr ⟨by decide +kernel, fun t ht => by
      have : minute.int16 b!"never" = none := by decide +kernel
      rw [this] at ht; cases ht⟩

/-- Two spellings of one time. -/
example : parseDate minute b!"Thu, 01 Jan 1970 00:00:16 GMT" = some 16 ∧
    parseDate minute b!"Thursday, 01-Jan-70 00:00:16 GMT" = some 16 := by decide +kernel

/-- The parameters of a Processor: "seven" wins over "huffman", and the last `max_entries` counts. -/
example : (∃ p, simpleNew unhex stored true [b!"huffman", b!"seven", b!"max_entries=3", b!"max_entries=5"] = .ok p ∧
      p.zlib = none ∧ p.st.seven = true ∧ p.st.maxEntries = 5) ∧
    simpleNew unhex stored true [b!"max_entries=x=1"] = .error .value := ⟨⟨_, rfl, rfl, rfl, rfl⟩, rfl⟩

end Verif.Props
