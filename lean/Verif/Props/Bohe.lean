import Verif.Bohe.Frame
import Verif.Bohe.FieldLemmas
import Verif.Props.Delta1
/-
Properties C71-C79: bohe.
-/
namespace Verif.Props
open Verif Verif.Text Verif.Text.Spec Verif.Bohe Verif.Bohe.Spec Verif.Huff Verif.Huff.Spec Verif.Bits Verif.Bits.Spec

/-! ### C71: frames -/

/-- What is sent for a header's value: its encoding if the name is in the table, else the value. -/
def SentValue (L : Libs) (k v e : Str) : Prop := if k ∈ idTable then encodeField L k v = .ok e else e = v

/-- The length of a binary value, or the length of the code of another one in bits, is less than 2^32. -/
def Short71 (codes : List (List Bool)) (k e : Str) : Prop :=
  (if k ∈ idTable ∧ k ∈ encoderNames then e.length
    else ((e ++ [256]).map fun c => (codes[c]?.getD []).length).sum) < 2 ^ 32

theorem Short71.fits {codes : List (List Bool)} {k e : Str} (h : Short71 codes k e) : Fits codes k e := by
  unfold Short71 at h
  refine ⟨fun h1 h2 => ?_, fun hn => ?_⟩
  · rwa [if_pos ⟨h1, h2⟩] at h
  · rw [if_neg hn] at h
    rwa [textBits, List.length_flatMap]

/-- A message of byte strings; `es` are the encoded values. -/
def Message71 (L : Libs) (codes : List (List Bool)) (items : List Hdr) (es : List Str) : Prop :=
  List.Forall₂ (fun p e => SentValue L p.1 p.2 e ∧ (∀ c ∈ p.1, c < 256) ∧ (∀ c ∈ e, c < 256) ∧
    Short71 codes p.1 e) items es

theorem Message71.canSend {L : Libs} {codes : List (List Bool)} {items : List Hdr} {es : List Str}
    (h : Message71 L codes items es) (hk : ∀ p ∈ items, p.1 ∉ idTable → p.1.length < 256) :
    List.Forall₂ (fun p e => CanSend L codes p.1 p.2 e) items es := by
  unfold Message71 at h
  induction h with
  | nil => exact .nil
  | cons h1 _ ih =>
    obtain ⟨hs, hn, hv, hl⟩ := h1
    exact .cons ⟨hs, hn, hv, hl.fits, hk _ (by simp)⟩ (ih fun p hp => hk p (by simp [hp]))

/-- C71.  compress succeeds if the encoders do and no name outside the table has more than 255 characters; with a
longer name it raises struct.error. -/
theorem C71_total (L : Libs) (h : Huffman) (hc : IsCoder1 h) : ∃ codes : List (List Bool),
    codes.length = 257 ∧ h.codeTable = codes.map (fun c => (pack c, c.length)) ∧
    (∀ items es, Message71 L codes items es → (∀ p ∈ items, p.1 ∉ idTable → p.1.length < 256) →
      ∃ bytes, compress L h items = .ok bytes ∧ ∀ c ∈ bytes, c < 256) ∧
    (∀ items es k v rest, Message71 L codes items es → (∀ p ∈ items, p.1 ∉ idTable → p.1.length < 256) →
      k ∉ idTable → 256 ≤ k.length → compress L h (items ++ (k, v) :: rest) = .error .struct) := by
  obtain ⟨codes, hk, h257⟩ := hc.codes
  refine ⟨codes, h257, hk.table, fun items es hm hs => ?_, fun items es k v rest hm hs hn hl => ?_⟩
  · exact ⟨_, compress_bits L hk h257 (hm.canSend hs), pack_lt _⟩
  · obtain ⟨b, e, -⟩ := headers_write L hk h257 (hm.canSend hs) wrote_empty
    have happ : ∀ (items : List Hdr) (b0 b : BitBucket), storeHeaders L h b0 items = .ok b → ∀ l,
        storeHeaders L h b0 (items ++ l) = storeHeaders L h b l := by
      intro items
      induction items with
      | nil => intro b0 b e l; cases e; rfl
      | cons p items ih =>
        intro b0 b e l
        simp only [storeHeaders, bind, Except.bind, List.cons_append] at e ⊢
        cases h1 : storeHeader L h b0 p.1 p.2 with
        | error x => rw [h1] at e; cases e
        | ok b1 => rw [h1] at e; exact ih b1 b e l
    have hor : ¬ 128 ||| k.length < 256 := by
      have : k.length ≤ 128 ||| k.length := Nat.right_le_or
      omega
    simp only [compress, bind, Except.bind, happ _ _ _ e, storeHeaders, storeHeader,
      List.idxOf?_eq_none_iff.2 hn, storeBits8, packB, if_neg hor]

/-- C71, for names of the table and of at most 127 characters, and binary values of a length divisible by four: the
reference reader finds the names, the encoded values and the flags in order. -/
theorem C71_partial (L : Libs) (h : Huffman) (hc : IsCoder1 h) : ∃ codes : List (List Bool),
    codes.length = 257 ∧ PrefixFree codes ∧ h.codeTable = codes.map (fun c => (pack c, c.length)) ∧
    ∀ items es bytes, Message71 L codes items es → compress L h items = .ok bytes →
      (∀ p ∈ items, p.1 ∉ idTable → p.1.length < 128) →
      List.Forall₂ (fun p e => p.1 ∈ idTable → p.1 ∈ encoderNames → e.length % 4 = 0) items es →
      readFrame idTable encoderNames codes (8 * bytes.length + 1) (bitsOf bytes) =
        some (List.zipWith (fun p e => (p.1, e, hasU00 p.2)) items es) := by
  obtain ⟨table, hs, e⟩ := hc
  obtain ⟨t, h', codes, -, e', hk, ho⟩ := Delta1.huffman_spec table 257 (by omega) hs
  rw [e] at e'
  cases e'
  refine ⟨codes, ho.len, ho.free, hk.table, fun items es bytes hm hb hn h4 => ?_⟩
  have hcs := hm.canSend (fun p hp hx => by have := hn p hp hx; omega)
  have hall : List.Forall₂ (fun p e => CanSend L codes p.1 p.2 e ∧ Readable p.1 e) items es := by
    clear hb hm
    induction hcs with
    | nil => exact .nil
    | cons h1 _ ih =>
      cases h4 with
      | cons h41 h42 =>
        exact .cons ⟨h1, ⟨hn _ (by simp), h41⟩⟩ (ih (fun p hp => hn p (by simp [hp])) h42)
  rw [compress_bits L hk ho.len hcs] at hb
  cases hb
  rw [bits_pack]
  have hlen := congrArg List.length (bits_pack (frameB codes items es))
  simp only [bitsOf_length, List.length_append] at hlen
  exact readFrame_frameB ho.free ho.len ho.nonempty hall _ (by simp [padZeros]; omega) _ (by omega)

/-- C71.  Two different messages are sent as the same bytes, for every value and many names: the length of a binary
value is known up to its two lowest bits only. -/
theorem C71_false (L : Libs) (h : Huffman) (hc : IsCoder1 h) : ∃ codes : List (List Bool),
    codes.length = 257 ∧ h.codeTable = codes.map (fun c => (pack c, c.length)) ∧
    ∀ k v : Str, k ∉ idTable → k.length < 125 → (∀ c ∈ k, c < 256) → (∀ c ∈ v, c < 256) → Short71 codes k v →
      ∃ bytes,
        compress L h [(b!":method", b!"lock" ++ [131 + k.length, 120, 45]), (k, v)] = .ok bytes ∧
        compress L h [(b!":method", b!"lock"), ([120, 45, 128 + k.length] ++ k, v)] = .ok bytes := by
  obtain ⟨codes, hcd, h257⟩ := hc.codes
  refine ⟨codes, h257, hcd.table, fun k v hk hkl hkb hv hl => ?_⟩
  have hK : [120, 45, 128 + k.length] ++ k ∉ idTable := by
    intro hm
    have : ∀ s ∈ idTable, ∀ c ∈ s, c < 128 := by decide +kernel
    have := this _ hm (128 + k.length) (by simp)
    omega
  have hfits : ∀ k', k' ∉ idTable → Fits codes k' v := by
    intro k' hk'
    have := hl.fits.2 fun h => hk h.1
    exact ⟨fun h => absurd h hk', fun _ => this⟩
  have hmid : idTable.idxOf? b!":method" = some 7 := by decide +kernel
  have hmm : b!":method" ∈ idTable := by decide +kernel
  have hme : b!":method" ∈ encoderNames := by decide +kernel
  have hmeth : ∀ e : Str, e ∉ methods.keys → e.length < 2 ^ 32 → (∀ c ∈ e, c < 256) →
      CanSend L codes b!":method" e e := by
    intro e he hel heb
    have hh : methods.has e = false := by
      rw [Dict.has, Dict.get?_none.2 he]
      rfl
    refine ⟨?_, by decide, heb, ⟨fun _ _ => hel, fun hn => absurd ⟨hmm, hme⟩ hn⟩, fun hn => absurd hmm hn⟩
    rw [Sent, if_pos hmm]
    simp [encodeField, encMethod, hh]
  have hA : List.Forall₂ (fun p e => CanSend L codes p.1 p.2 e)
      [(b!":method", b!"lock" ++ [131 + k.length, 120, 45]), (k, v)] [b!"lock" ++ [131 + k.length, 120, 45], v] := by
    refine .cons (hmeth _ ?_ ?_ ?_) (.cons ⟨?_, hkb, hv, hfits k hk, fun _ => Nat.lt_trans hkl (by omega)⟩ .nil)
    · simp [methods, Dict.keys]
    · simp
    · intro c hc
      simp only [List.cons_append, List.nil_append, List.mem_cons, List.not_mem_nil, or_false] at hc
      omega
    · rw [Sent, if_neg hk]
  have hB : List.Forall₂ (fun p e => CanSend L codes p.1 p.2 e)
      [(b!":method", b!"lock"), ([120, 45, 128 + k.length] ++ k, v)] [b!"lock", v] := by
    refine .cons (hmeth _ ?_ ?_ ?_) (.cons ⟨?_, ?_, hv, hfits _ hK, fun _ => by simp; omega⟩ .nil)
    · simp [methods, Dict.keys]
    · simp
    · decide
    · rw [Sent, if_neg hK]
    · intro c hc
      simp only [List.cons_append, List.nil_append, List.mem_cons] at hc
      rcases hc with rfl | rfl | rfl | hc
      · omega
      · omega
      · omega
      · exact hkb c hc
  refine ⟨_, compress_bits L hcd h257 hA, ?_⟩
  rw [compress_bits L hcd h257 hB]
  congr 2
  have hu : hasU00 (b!"lock" ++ [131 + k.length, 120, 45]) = false := by
    simp [hasU00, List.isPrefixOf]
  have hor1 : 128 ||| k.length = 128 + k.length := or_128_add _ (by omega)
  have hor2 : 128 ||| ([120, 45, 128 + k.length] ++ k).length = 131 + k.length := by
    rw [or_128_add _ (by simp; omega)]
    simp
    omega
  simp only [frameB, headerB, hmid, hme, if_true, List.idxOf?_eq_none_iff.2 hk, List.idxOf?_eq_none_iff.2 hK, hor1, hor2,
    hu, bitsOf_append, bitsOf_cons, bitsOf_nil, byteBits]
  simp [hasU00, List.isPrefixOf]

/-! ### C72: dates -/

/-- C72.  A date is never refused: it is read as the seconds since the beginning of 1990 if it is a date, else as the
number it says, else as 0; what would be negative is 0. -/
theorem C72_date (L : Libs) (k v : Str)
    (hk : k ∈ [b!"last-modified", b!"date", b!"expires", b!"if-modified-since", b!"if-unmodified-since"]) :
    ∃ s, encodeField L k v = .ok s ∧ ∀ rest, readLeb (s ++ rest) = some
      (match L.date v, L.int v with
        | .ok t, _ => (t - 631152000).toNat
        | .error _, .ok n => n.toNat
        | .error _, .error _ => 0, rest) :=
  ⟨encDate L v, by rw [encodeField, if_pos hk], fun rest => encDate_read L v rest⟩

/-- C72.  All dates up to the beginning of 1990, and all values that are neither dates nor numbers, are sent as the
same byte. -/
theorem C72_early (L : Libs) (k v : Str)
    (hk : k ∈ [b!"last-modified", b!"date", b!"expires", b!"if-modified-since", b!"if-unmodified-since"])
    (hv : (∃ t, L.date v = .ok t ∧ t ≤ 631152000) ∨ (∃ e e', L.date v = .error e ∧ L.int v = .error e')) :
    encodeField L k v = .ok [0] := by
  rw [encodeField, if_pos hk]
  unfold encDate
  rcases hv with ⟨t, ht, hle⟩ | ⟨e, e', h1, h2⟩
  · rw [ht]
    have : (max 0 (t - newEpoch)).toNat = 0 := by unfold newEpoch; omega
    simp [uvarint, this, uvarintLoop]
  · rw [h1, h2]
    rfl

/-- Libraries to try the theorems on. -/
def lib71 : Libs where
  int s := if s = b!"60" then .ok 60 else if s = b!"0" then .ok 0 else .error .value
  date s := if s = b!"Mon, 01 Jan 1990 00:01:00 GMT" then .ok 631152060
    else if s = b!"Thu, 01 Jan 1970 00:00:00 GMT" then .ok 0 else .error .value
  md5 _ := List.replicate 16 7
  dictHeader s := if s = b!"a=7a7a, b" then [(b!"a", some b!"7a7a"), (b!"b", none)] else []
  acceptHeader s := if s = b!"a;q=0, b" then [(b!"b", true), (b!"a", false)] else []
  cookie s := if s = b!"a=b" then .ok [⟨b!"a", b!"b", [], [], [], []⟩] else .ok []

example : encodeField lib71 b!"date" b!"Mon, 01 Jan 1990 00:01:00 GMT" = .ok [60] := by decide +kernel

example : encodeField lib71 b!"expires" b!"Thu, 01 Jan 1970 00:00:00 GMT" = encodeField lib71 b!"expires" b!"-1" := by
  rw [C72_early lib71 b!"expires" b!"Thu, 01 Jan 1970 00:00:00 GMT" (by decide) (.inl ⟨0, by decide +kernel, by decide⟩),
    C72_early lib71 b!"expires" b!"-1" (by decide) (.inr ⟨.value, .value, by decide +kernel, by decide +kernel⟩)]

/-- A message for C71. -/
example : Message71 lib71 (List.replicate 257 [true]) [(b!":method", b!"lock"), (b!"x", b!"y")] [b!"lock", b!"y"] :=
  .cons ⟨by unfold SentValue; decide +kernel, by decide, by decide, by unfold Short71; decide +kernel⟩
    (.cons ⟨by unfold SentValue; decide +kernel, by decide, by decide, by unfold Short71; decide +kernel⟩ .nil)

/-- Its frame. -/
example : (Delta1.huffman oldRequestTable).toOption.bind (fun h =>
    (compress lib71 h [(b!":method", b!"lock"), (b!"x", b!"y")]).toOption) =
      some [8, 128, 0, 0, 1, 108, 111, 99, 107, 129, 120, 0, 0, 0, 0, 66, 64] := by
  decide +kernel

/-! ### C73: cookies -/

/-- C73.  The reference reader finds the names of the cookies and their values, decoded if they look encoded, in order;
a name without value is sent like one with an empty value. -/
theorem C73_cookie (L : Libs) (v s : Str) (h : encodeField L b!"cookie" v = .ok s) :
    ∃ ws, List.Forall₂ (fun p w => (∃ x, p.2 = some x ∧ attemptDecode x = .ok w) ∨ (p.2 = none ∧ w = []))
        (L.dictHeader v) ws ∧
      readMany readCookie s.length s = some (List.zipWith (fun p w => (p.1, w)) (L.dictHeader v) ws) := by
  have h' : encCookieLoop (L.dictHeader v) = .ok s := h
  obtain ⟨ws, hf, hr⟩ := encCookieLoop_read _ _ h'
  refine ⟨ws, hf.imp ?_, hr _ le_rfl⟩
  intro p w hw
  cases hp : p.2 with
  | none => rw [hp] at hw; exact .inr ⟨rfl, hw⟩
  | some x => rw [hp] at hw; exact .inl ⟨x, rfl, hw⟩

/-- C73.  It raises only when a value is refused. -/
theorem C73_raises (L : Libs) (v : Str) : (∃ e, encodeField L b!"cookie" v = .error e) ↔
    ∃ p ∈ L.dictHeader v, ∃ x e, p.2 = some x ∧ attemptDecode x = .error e := by
  have h0 : encodeField L b!"cookie" v = encCookieLoop (L.dictHeader v) := rfl
  rw [h0]
  generalize L.dictHeader v = items
  induction items with
  | nil => simp [encCookieLoop]
  | cons p items ih =>
    obtain ⟨k, v⟩ := p
    cases v with
    | none =>
      simp only [encCookieLoop, bind, Except.bind, List.mem_cons]
      cases hs : encCookieLoop items with
      | error e =>
        obtain ⟨p, hp, h⟩ := ih.1 ⟨e, hs⟩
        exact ⟨fun _ => ⟨p, .inr hp, h⟩, fun _ => ⟨e, rfl⟩⟩
      | ok s =>
        refine ⟨fun ⟨e, he⟩ => (by cases he), fun ⟨p, hp, x, e, h1, h2⟩ => ?_⟩
        rcases hp with rfl | hp
        · cases h1
        · obtain ⟨e', he'⟩ := ih.2 ⟨p, hp, x, e, h1, h2⟩
          rw [hs] at he'
          cases he'
    | some y =>
      simp only [encCookieLoop, bind, Except.bind, List.mem_cons]
      cases hy : attemptDecode y with
      | error e => exact ⟨fun _ => ⟨(k, some y), .inl rfl, y, e, rfl, hy⟩, fun _ => ⟨e, rfl⟩⟩
      | ok w =>
        simp only [pure, Except.pure]
        cases hs : encCookieLoop items with
        | error e =>
          obtain ⟨p, hp, h⟩ := ih.1 ⟨e, hs⟩
          exact ⟨fun _ => ⟨p, .inr hp, h⟩, fun _ => ⟨e, rfl⟩⟩
        | ok s =>
          refine ⟨fun ⟨e, he⟩ => (by cases he), fun ⟨p, hp, x, e, h1, h2⟩ => ?_⟩
          rcases hp with rfl | hp
          · cases h1
            rw [hy] at h2
            cases h2
          · obtain ⟨e', he'⟩ := ih.2 ⟨p, hp, x, e, h1, h2⟩
            rw [hs] at he'
            cases he'

example : encodeField lib71 b!"cookie" b!"a=7a7a, b" = .ok ([95, 1, 97, 2, 122, 122] ++ [95, 1, 98, 0]) := by decide +kernel

/-! ### C74: Set-Cookie -/

/-- The number sent with a cookie: its age, or without one the date on which it expires in the form of C72. -/
def time74 (L : Libs) (m : Morsel) : Option Nat :=
  match m.maxAge with
  | [] => some (match L.date m.expires, L.int m.expires with
      | .ok t, _ => (t - 631152000).toNat
      | .error _, .ok n => n.toNat
      | .error _, .error _ => 0)
  | a => match L.int a with
    | .ok n => some n.toNat
    | .error _ => none

/-- C74.  The reference reader finds all cookies of all the header's values in order, each with name, decoded value,
path, domain and one number. -/
theorem C74_cookies (L : Libs) (hL : ∀ v ms, L.cookie v = .ok ms → ∀ m ∈ ms, 0 ∉ m.maxAge) (v s : Str)
    (h : encodeField L b!"set-cookie" v = .ok s) :
    ∃ mss cs, List.Forall₂ (fun x ms => L.cookie (x.map fun c => if c = 91 ∨ c = 93 then 95 else c) = .ok ms)
        (splitOn 0 v) mss ∧
      List.Forall₂ (fun m c => c.name = m.name ∧ attemptDecode m.value = .ok c.value ∧ c.path = m.path ∧
        c.domain = m.domain ∧ time74 L m = some c.time) mss.flatten cs ∧
      readSetCookies s.length s = some cs := by
  have h' : encSetCookieLoop L (splitOn 0 v) [] = .ok s := h
  obtain ⟨tail, mss, rfl, hf, cs, hcs, hr⟩ := encSetCookieLoop_read _ hL _ _ h'
  refine ⟨mss, cs, hf, hcs.imp ?_, hr _ le_rfl⟩
  intro m c hc
  obtain ⟨h1, h2, h3, h4, h5⟩ := hc
  refine ⟨h1, h2, h3, h4, ?_⟩
  rw [← h5]
  unfold time74 cookieTime
  cases m.maxAge <;> rfl

/-- C74.  The age and the date cannot be told apart: a cookie of the session is sent like one that has expired. -/
theorem C74_age_false (L : Libs) (m : Morsel) (e e' : PyErr) (hm : m.maxAge = []) (hd : L.date m.expires = .error e)
    (hi : L.int m.expires = .error e') (h0 : L.int b!"0" = .ok 0) :
    encMorsel L m = encMorsel L { m with maxAge := b!"0" } := by
  have : encAge L m = encAge L { m with maxAge := b!"0" } := by
    have h1 : encAge L m = .ok [0] := by
      simp only [encAge, hm]
      simp [encDate, hd, hi, uvarint, uvarintLoop]
    have h2 : encAge L { m with maxAge := b!"0" } = .ok [0] := by
      simp [encAge, encUvarint, splitOn, h0, bind, Except.bind, pure, Except.pure, uvarint, uvarintLoop]
    rw [h1, h2]
  unfold encMorsel
  rw [this]

example : encodeField lib71 b!"set-cookie" (b!"a=b" ++ [0] ++ b!"a=b") =
    .ok ([46, 1, 97, 1, 98, 0, 0, 0, 0, 0] ++ [0] ++ [46, 1, 97, 1, 98, 0, 0, 0, 0, 0]) := by decide +kernel

example : ∀ v ms, lib71.cookie v = .ok ms → ∀ m ∈ ms, 0 ∉ m.maxAge := by
  intro v ms h m hm
  simp only [lib71] at h
  split at h
  · cases h
    simp only [List.mem_singleton] at hm
    subst hm
    decide
  · cases h
    simp at hm

/-! ### C75: Cache-Control -/

/-- How a directive is sent: 0 if it is absent, 1 without argument, else the number in the argument. -/
def Says75 (L : Libs) (d : Option (Option Str)) (s : Str) : Prop :=
  match d with
  | none => s = [0]
  | some none => s = [1]
  | some (some a) => encUvarint L.int a = .ok s

/-- C75.  Only the directives max-age, max-stale and min-fresh are sent, as numbers; nothing else matters. -/
theorem C75_directives (L : Libs) (v s : Str) : encodeField L b!"cache-control" v = .ok s ↔
    ∃ a b c, Says75 L (directive v b!"max-age") a ∧ Says75 L (directive v b!"max-stale") b ∧
      Says75 L (directive v b!"min-fresh") c ∧ s = b!"_" ++ a ++ b ++ c ++ [0] := by
  have h0 : encodeField L b!"cache-control" v = encCacheControl L v true := rfl
  have key : ∀ m x, encDirective L (parseCacheControl v) m = .ok x ↔ Says75 L (directive v m) x := by
    intro m x
    unfold encDirective
    rw [parse_get]
    rcases directive v m with _ | _ | a
    · simp only [Option.map_none, Says75]
      exact ⟨fun h => by cases h; rfl, fun h => by rw [h]; rfl⟩
    · simp only [Option.map_some, Says75]
      exact ⟨fun h => by cases h; rfl, fun h => by rw [h]; rfl⟩
    · simp only [Option.map_some, Says75]
  rw [h0]
  simp only [encCacheControl, bind, Except.bind, if_true]
  cases ha : encDirective L (parseCacheControl v) b!"max-age" with
  | error e =>
    refine ⟨fun h => (by cases h), fun ⟨a, b, c, h1, _⟩ => ?_⟩
    rw [(key _ _).2 h1] at ha
    cases ha
  | ok a =>
    cases hb : encDirective L (parseCacheControl v) b!"max-stale" with
    | error e =>
      refine ⟨fun h => (by cases h), fun ⟨a, b, c, _, h2, _⟩ => ?_⟩
      rw [(key _ _).2 h2] at hb
      cases hb
    | ok b =>
      cases hc : encDirective L (parseCacheControl v) b!"min-fresh" with
      | error e =>
        refine ⟨fun h => (by cases h), fun ⟨a, b, c, _, _, h3, _⟩ => ?_⟩
        rw [(key _ _).2 h3] at hc
        cases hc
      | ok c =>
        simp only [pure, Except.pure, Except.ok.injEq]
        constructor
        · rintro rfl
          exact ⟨a, b, c, (key _ _).1 ha, (key _ _).1 hb, (key _ _).1 hc, rfl⟩
        · rintro ⟨a', b', c', h1, h2, h3, rfl⟩
          rw [(key _ _).2 h1] at ha
          rw [(key _ _).2 h2] at hb
          rw [(key _ _).2 h3] at hc
          cases ha
          cases hb
          cases hc
          rfl

/-- C75.  So a response that must not be stored is sent like an empty header. -/
theorem C75_false (L : Libs) : encodeField L b!"cache-control" b!"no-store, private, s-maxage=60" =
    encodeField L b!"cache-control" [] := by
  have key : ∀ v, (directive v b!"max-age" = none ∧ directive v b!"max-stale" = none ∧ directive v b!"min-fresh" = none) →
      encodeField L b!"cache-control" v = .ok [95, 0, 0, 0, 0] := by
    rintro v ⟨h1, h2, h3⟩
    exact (C75_directives L v _).2 ⟨[0], [0], [0], by rw [h1]; rfl, by rw [h2]; rfl, by rw [h3]; rfl, rfl⟩
  rw [key _ (by decide +kernel), key _ (by decide +kernel)]

example : encodeField lib71 b!"cache-control" (b!"Max-Age = 60" ++ [0] ++ b!"max-stale, max-stale=5,no-cache") =
    .ok [95, 60, 1, 0, 0] := by decide +kernel

example : encodeField lib71 b!"cache-control" b!"max-age=one" = .error .value := by decide +kernel

/-! ### C76: methods -/

/-- C76.  Method names of any length but 1 can be told apart. -/
theorem C76_method_partial (L : Libs) (v : Str) (hv : v.length ≠ 1) : ∃ s, encodeField L b!":method" v = .ok s ∧
    ∀ w, w.length ≠ 1 → encodeField L b!":method" w = .ok s → w = v := by
  have h0 : ∀ w, encodeField L b!":method" w = encMethod w := fun w => rfl
  have hin : ∀ w ∈ methods.keys, ∃ n, encMethod w = .ok [n] := by
    have : ∀ w ∈ methods.keys, ∃ n ∈ List.range 8, encMethod w = .ok [n] := by decide +kernel
    exact fun w hw => let ⟨n, _, h⟩ := this w hw; ⟨n, h⟩
  have hout : ∀ w, w ∉ methods.keys → encMethod w = .ok w := by
    intro w hw
    simp [encMethod, Dict.has, Dict.get?_none.2 hw]
  by_cases hm : v ∈ methods.keys
  · obtain ⟨n, hn⟩ := hin v hm
    refine ⟨[n], by rw [h0, hn], fun w hw he => ?_⟩
    rw [h0] at he
    by_cases hwm : w ∈ methods.keys
    · have : ∀ v ∈ methods.keys, ∀ w ∈ methods.keys, encMethod w = encMethod v → w = v := by decide +kernel
      exact this v hm w hwm (by rw [he, hn])
    · rw [hout w hwm] at he
      cases he
      simp at hw
  · refine ⟨v, by rw [h0, hout v hm], fun w hw he => ?_⟩
    rw [h0] at he
    by_cases hwm : w ∈ methods.keys
    · obtain ⟨n, hn⟩ := hin w hwm
      rw [hn] at he
      cases he
      simp at hv
    · rw [hout w hwm] at he
      cases he
      rfl

/-- C76.  But `get` is sent like the method that consists of the byte 1. -/
theorem C76_method_false (L : Libs) : encodeField L b!":method" b!"get" = encodeField L b!":method" [1] := rfl

/-- C76.  The codes are only used for names in lower case. -/
theorem C76_method_upper (L : Libs) (v : Str) (h : ∃ c ∈ v, 65 ≤ c ∧ c ≤ 90) : encodeField L b!":method" v = .ok v := by
  have h0 : encodeField L b!":method" v = encMethod v := rfl
  have hv : v ∉ methods.keys := by
    intro hm
    obtain ⟨c, hc, h1, h2⟩ := h
    have : ∀ w ∈ methods.keys, ∀ c ∈ w, 90 < c := by decide +kernel
    have := this v hm c hc
    omega
  rw [h0]
  simp [encMethod, Dict.has, Dict.get?_none.2 hv]

example : encodeField lib71 b!":method" b!"post" = .ok [2] := rfl

/-! ### C77: entity tags and preferences -/

/-- C77.  Of every entity tag the digest is sent. -/
theorem C77_etags (L : Libs) (hL : ∀ s, (L.md5 s).length = 16) (k v : Str)
    (hk : k ∈ [b!"etag", b!"if-match", b!"if-none-match"]) :
    ∃ s, encodeField L k v = .ok s ∧ readTags s = some ((splitOn 0 v).map L.md5) := by
  have h0 : encodeField L k v = .ok (encEtag L v) := by
    simp only [List.mem_cons, List.not_mem_nil, or_false] at hk
    rcases hk with rfl | rfl | rfl <;> rfl
  refine ⟨_, h0, ?_⟩
  have key : ∀ (l : List Str) (fuel : Nat), (l.flatMap fun v => 16 :: L.md5 v).length ≤ fuel →
      readMany readField fuel (l.flatMap fun v => 16 :: L.md5 v) = some (l.map L.md5) := by
    intro l
    induction l with
    | nil => intro fuel _; cases fuel <;> rfl
    | cons x l ih =>
      intro fuel hl
      simp only [List.flatMap_cons, List.cons_append, List.length_cons, List.length_append] at hl
      obtain ⟨fuel, rfl⟩ : ∃ f, fuel = f + 1 := ⟨fuel - 1, by omega⟩
      have := readField_append (L.md5 x) (l.flatMap fun v => 16 :: L.md5 v)
      rw [hL, show uvarint ((16 : Nat) : Int) = [16] from rfl, List.cons_append, List.nil_append] at this
      simp only [List.flatMap_cons, List.cons_append, readMany]
      rw [this]
      simp only [Option.bind_some]
      rw [ih fuel (by omega)]
      rfl
  unfold encEtag readTags
  rw [readLeb_nat]
  simp only [Option.bind_some]
  rw [key _ _ le_rfl]
  simp

/-- C77.  Of the Accept headers the values that are not refused are sent, in order of preference, separated by NUL. -/
theorem C77_accept (L : Libs) (k v : Str)
    (hk : k ∈ [b!"accept", b!"accept-language", b!"accept-encoding", b!"accept-charset"])
    (hne : ∀ p ∈ L.acceptHeader v, p.2 = true → p.1 ≠ []) :
    encodeField L k v = .ok (joinWith [0] (((L.acceptHeader v).filter (·.2)).map (·.1))) := by
  have h0 : encodeField L k v = .ok (encAccept L v) := by
    simp only [List.mem_cons, List.not_mem_nil, or_false] at hk
    rcases hk with rfl | rfl | rfl | rfl <;> rfl
  rw [h0]
  unfold encAccept
  revert hne
  generalize L.acceptHeader v = l
  intro hne
  have key : ∀ (l : List (Str × Bool)), (∀ p ∈ l, p.2 = true → p.1 ≠ []) → ∀ acc : Str, acc ≠ [] →
      encAcceptLoop l acc = joinWith [0] (acc :: (l.filter (·.2)).map (·.1)) := by
    intro l
    induction l with
    | nil => intro _ acc _; rfl
    | cons p l ih =>
      intro hne acc hacc
      obtain ⟨x, q⟩ := p
      have hpos : 0 < acc.length := List.length_pos_iff.2 hacc
      cases q with
      | false =>
        simp only [encAcceptLoop, List.filter_cons]
        simpa using ih (fun p hp => hne p (by simp [hp])) acc hacc
      | true =>
        simp only [encAcceptLoop, if_true, hpos, List.filter_cons, List.map_cons]
        rw [ih (fun p hp => hne p (by simp [hp])) _ (by simp)]
        cases hl : (l.filter (·.2)).map (·.1) with
        | nil => simp [joinWith]
        | cons y ys => simp [joinWith]
  induction l with
  | nil => rfl
  | cons p l ih =>
    obtain ⟨x, q⟩ := p
    cases q with
    | false => simpa [encAcceptLoop] using ih fun p hp => hne p (by simp [hp])
    | true =>
      have := key l (fun p hp => hne p (by simp [hp])) x (hne (x, true) (by simp) rfl)
      simpa [encAcceptLoop] using this

example : encodeField lib71 b!"accept" b!"a;q=0, b" = .ok b!"b" := by decide +kernel

example : encodeField lib71 b!"etag" b!"x" = .ok (1 :: 16 :: List.replicate 16 7) := by decide +kernel

/-! ### C78: P3P -/

/-- The reference reader of a policy token: three letters of the table, then nothing, i or o. -/
def token78 (q : Nat) : Str := (p3pTable[q / 4 - 1]?).getD [] ++ (if q % 4 = 1 then b!"i" else if q % 4 = 2 then b!"o" else [])

/-- A token of the table, possibly with i or o. -/
def Token78 (t : Str) : Prop := ∃ x ∈ p3pTable, t = x ∨ t = x ++ b!"i" ∨ t = x ++ b!"o"

theorem table78 : ∀ x ∈ p3pTable, x.length = 3 := by decide +kernel

theorem idx78 {x : Str} (hx : x ∈ p3pTable) : ∃ i, p3pTable.idxOf? x = some i ∧ i < 52 ∧ p3pTable[i]? = some x := by
  have : ∀ x ∈ p3pTable, ∃ i ∈ List.range 52, p3pTable.idxOf? x = some i ∧ p3pTable[i]? = some x := by decide +kernel
  obtain ⟨i, hi, h1, h2⟩ := this x hx
  exact ⟨i, h1, List.mem_range.1 hi, h2⟩

theorem step78 {token : Str} {i j : Nat} (hi : p3pTable.idxOf? (token.take 3) = some i) (hlt : i < 52) (hj4 : j < 4)
    (hj : token.length ≠ 4 ∧ j = 0 ∨ token.length = 4 ∧ [97, 105, 111].idxOf? (token.getLastD 0) = some j) (rest : List Str)
    (cp : Str) : p3pLoop (token :: rest) cp = p3pLoop rest (cp ++ [4 * (i + 1) + j]) := by
  have hsh : (i + 1) <<< 2 = 2 ^ 2 * (i + 1) := by rw [Nat.shiftLeft_eq]; omega
  have hor := Nat.two_pow_add_eq_or_of_lt (b := j) (i := 2) hj4 (i + 1)
  have hpack : ∀ n, n < 256 → packB n = .ok [n] := fun n hn => by rw [packB, if_pos hn]
  rw [p3pLoop, hi]
  rcases hj with ⟨hl, rfl⟩ | ⟨hl, hj⟩
  · simp only [bind, Except.bind, if_neg hl, pure, Except.pure, hsh]
    rw [hpack _ (by omega)]
    rfl
  · simp only [bind, Except.bind, if_pos hl, hj, pure, Except.pure, hsh, ← hor]
    rw [hpack _ (by omega)]

theorem token78_step {t : Str} (ht : Token78 t) : ∃ q, token78 q = t ∧
    ∀ rest cp, p3pLoop (t :: rest) cp = p3pLoop rest (cp ++ [q]) := by
  obtain ⟨x, hx, h⟩ := ht
  have hl := table78 x hx
  obtain ⟨i, hi, hlt, hg⟩ := idx78 hx
  have ht3 : ∀ c : Nat, (x ++ [c]).take 3 = x := fun c => List.take_left' hl
  rcases h with rfl | rfl | rfl
  · refine ⟨4 * (i + 1) + 0, ?_, step78 (by rw [List.take_of_length_le (by omega), hi]) hlt (by omega) (.inl ⟨by omega, rfl⟩)⟩
    unfold token78
    rw [show (4 * (i + 1) + 0) / 4 - 1 = i by omega, hg]
    simp
  · refine ⟨4 * (i + 1) + 1, ?_, step78 (by rw [ht3, hi]) hlt (by omega) (.inr ⟨by simp [hl], by simp; decide⟩)⟩
    unfold token78
    rw [show (4 * (i + 1) + 1) / 4 - 1 = i by omega, hg, if_pos (by omega)]
    simp
  · refine ⟨4 * (i + 1) + 2, ?_, step78 (by rw [ht3, hi]) hlt (by omega) (.inr ⟨by simp [hl], by simp; decide⟩)⟩
    unfold token78
    rw [show (4 * (i + 1) + 2) / 4 - 1 = i by omega, hg, if_neg (by omega), if_pos (by omega)]
    simp

/-- The policy reference as it is sent. -/
def ref78 (d : Dict Str (Option Str)) (s : Str) : Prop :=
  (∃ r, d.get? b!"policyref" = some (some r) ∧ s = uvarint r.length ++ r) ∨ (d.get? b!"policyref" = none ∧ s = [0])

theorem encP3p_eq (L : Libs) (v r : Str) (hr : ref78 (L.dictHeader v) r) (cp : Str)
    (hcp : (L.dictHeader v).get? b!"CP" = some (some cp)) :
    encodeField L b!"p3p" v = (p3pLoop (splitOn 32 cp) []).map (r ++ ·) := by
  have h0 : encodeField L b!"p3p" v = encP3p L v := rfl
  rw [h0]
  unfold encP3p
  rcases hr with ⟨x, hx, rfl⟩ | ⟨hx, rfl⟩
  · simp only [bind, Except.bind, hx, hcp, pure, Except.pure]
    cases p3pLoop (splitOn 32 cp) [] <;> rfl
  · simp only [bind, Except.bind, hx, hcp, pure, Except.pure]
    cases p3pLoop (splitOn 32 cp) [] <;> rfl

/-- C78, for tokens of the table with i, o or nothing: each is sent as one byte from which it can be read. -/
theorem C78_partial (L : Libs) (v cp r : Str) (hr : ref78 (L.dictHeader v) r)
    (hcp : (L.dictHeader v).get? b!"CP" = some (some cp)) (ht : ∀ t ∈ splitOn 32 cp, Token78 t) :
    ∃ bytes, encodeField L b!"p3p" v = .ok (r ++ bytes) ∧ bytes.map token78 = splitOn 32 cp := by
  rw [encP3p_eq L v r hr cp hcp]
  have key : ∀ (l : List Str), (∀ t ∈ l, Token78 t) → ∀ acc, ∃ bytes, p3pLoop l acc = .ok (acc ++ bytes) ∧
      bytes.map token78 = l := by
    intro l
    induction l with
    | nil => intro _ acc; exact ⟨[], by simp [p3pLoop], rfl⟩
    | cons t l ih =>
      intro ht acc
      obtain ⟨q, hq, hs⟩ := token78_step (ht t (by simp))
      obtain ⟨bytes, e, hb⟩ := ih (fun x hx => ht x (by simp [hx])) (acc ++ [q])
      exact ⟨q :: bytes, by rw [hs, e]; simp, by simp [hq, hb]⟩
  obtain ⟨bytes, e, hb⟩ := key _ ht []
  exact ⟨bytes, by rw [e]; simp [Except.map], hb⟩

theorem take78 {x : Str} (hx : x ∈ p3pTable) (c : Nat) : (x ++ [c]).take 3 = x := List.take_left' (table78 x hx)

/-- C78.  A token with the attribute a is sent like the token without it. -/
theorem C78_false (x : Str) (hx : x ∈ p3pTable) (before after : List Str) (cp : Str) :
    p3pLoop (before ++ (x ++ b!"a") :: after) cp = p3pLoop (before ++ x :: after) cp := by
  have hl := table78 x hx
  obtain ⟨i, hi, hlt, hg⟩ := idx78 hx
  induction before generalizing cp with
  | nil =>
    have h1 := step78 (token := x) (j := 0) (by rw [List.take_of_length_le (by omega), hi]) hlt (by omega)
      (.inl ⟨by omega, rfl⟩) after cp
    have h2 := step78 (token := x ++ b!"a") (j := 0) (by rw [take78 hx, hi]) hlt (by omega)
      (.inr ⟨by simp [hl], by simp; decide⟩) after cp
    simp only [List.nil_append]
    rw [h1, h2]
  | cons t before ih =>
    simp only [List.cons_append, p3pLoop]
    split
    · rfl
    · simp only [ih]

/-- C78.  A token with any other attribute ends in ValueError. -/
theorem C78_raises (x : Str) (hx : x ∈ p3pTable) (c : Nat) (hc : c ∉ b!"aio") (before after : List Str)
    (hb : ∀ t ∈ before, Token78 t) (cp : Str) : p3pLoop (before ++ (x ++ [c]) :: after) cp = .error .value := by
  have hl := table78 x hx
  obtain ⟨i, hi, hlt, hg⟩ := idx78 hx
  induction before generalizing cp with
  | nil =>
    have hn : ([97, 105, 111] : List Nat).idxOf? c = none := List.idxOf?_eq_none_iff.2 hc
    simp only [List.nil_append, p3pLoop, take78 hx, hi, bind, Except.bind]
    rw [if_pos (by simp [hl])]
    simp [hn]
  | cons t before ih =>
    obtain ⟨q, -, hs⟩ := token78_step (hb t (by simp))
    rw [List.cons_append, hs]
    exact ih (fun y hy => hb y (by simp [hy])) _

/-- C78.  One unknown token, and the whole policy is dropped. -/
theorem C78_unknown (u : Str) (hu : u.take 3 ∉ p3pTable) (before after : List Str) (hb : ∀ t ∈ before, Token78 t)
    (cp : Str) : p3pLoop (before ++ u :: after) cp = .ok [] := by
  induction before generalizing cp with
  | nil => simp only [List.nil_append, p3pLoop, List.idxOf?_eq_none_iff.2 hu]
  | cons t before ih =>
    obtain ⟨q, -, hs⟩ := token78_step (hb t (by simp))
    rw [List.cons_append, hs]
    exact ih (fun y hy => hb y (by simp [hy])) _

example : p3pLoop [b!"NOI", b!"CURa", b!"TSTo"] [] = .ok [4, 48, 210] := by decide +kernel

example : [4, 48, 210].map token78 = [b!"NOI", b!"CUR", b!"TSTo"] := by decide +kernel

/-! ### C79: cookie values that look encoded -/

/-- C79.  Every byte string is sent for its form in hexadecimal, and for its form in base64 unless that is also
hexadecimal; so the receiver cannot know which of the three the value was. -/
theorem C79_decoded (s : Str) (hs : ∀ c ∈ s, c < 256) : attemptDecode (hex s) = .ok s ∧
    ((∃ c ∈ b64 s, c ∉ b!"0123456789abcdefABCDEF") → attemptDecode (b64 s) = .ok s) := by
  refine ⟨by rw [attemptDecode, if_pos (isHex_hex s hs), unhex_hex s hs], fun ⟨c, hc, hn⟩ => ?_⟩
  have h10 : ∀ (s : Str), (∀ c ∈ s, c < 256) → 10 ∉ b64 s := by
    have hd : ∀ n, b64Digit n ≠ 10 := by
      intro n
      unfold b64Digit
      split
      · omega
      · split
        · omega
        · split
          · omega
          · split <;> omega
    intro s
    induction s using b64.induct with
    | case1 => simp [b64]
    | case2 a => intro _; simp [b64, Ne.symm (hd _)]
    | case3 a b => intro _; simp [b64, Ne.symm (hd _)]
    | case4 a b c s ih =>
      intro hs
      have := ih fun x hx => hs x (by simp [hx])
      simp [b64, Ne.symm (hd _), this]
  have hall : ∀ v : Str, isHex v = true → 10 ∉ v → ∀ c ∈ v, (hexVal c).isSome = true := by
    intro v
    induction v using isHex.induct with
    | case1 => simp
    | case2 c => intro h hv; simp only [isHex, beq_iff_eq] at h; subst h; simp at hv
    | case3 a b rest ih =>
      intro h hv
      simp only [isHex, Bool.and_eq_true] at h
      intro c hc
      rcases List.mem_cons.1 hc with rfl | hc
      · exact h.1.1
      · rcases List.mem_cons.1 hc with rfl | hc
        · exact h.1.2
        · exact ih h.2 (fun h => hv (by simp [h])) c hc
  have hx : isHex (b64 s) = false := by
    cases hh : isHex (b64 s) with
    | false => rfl
    | true => exact absurd ((hexVal_some c).1 (hall _ hh (h10 s hs) c hc)) hn
  rw [attemptDecode, hx, if_neg (by simp), if_pos (isB64_b64 s hs), unb64_b64 s hs]

/-- C79.  Decoding never makes a value longer. -/
theorem C79_shorter (v w : Str) (h : attemptDecode v = .ok w) : w.length ≤ v.length := by
  unfold attemptDecode at h
  split at h
  · have := unhex_len v w h
    omega
  · split at h
    · cases h
      exact unb64_len v
    · cases h
      exact le_rfl

/-- C79.  It raises, with TypeError, exactly for an even number of hexadecimal digits before a newline. -/
theorem C79_raises (v : Str) (e : PyErr) : attemptDecode v = .error e ↔ e = .type ∧
    ∃ u, v = u ++ [10] ∧ u.length % 2 = 0 ∧ ∀ c ∈ u, c ∈ b!"0123456789abcdefABCDEF" := by
  constructor
  · intro h
    unfold attemptDecode at h
    split at h
    · rename_i hx
      rcases unhex_isHex v hx with ⟨w, hw⟩ | ⟨hw, u, hu, hl, hd⟩
      · rw [hw] at h; cases h
      · rw [hw] at h
        cases h
        exact ⟨rfl, u, hu, hl, fun c hc => (hexVal_some c).1 (hd c hc)⟩
    · split at h <;> cases h
  · rintro ⟨rfl, u, rfl, hl, hd⟩
    obtain ⟨h1, h2⟩ := isHex_newline u hl fun c hc => (hexVal_some c).2 (hd c hc)
    rw [attemptDecode, if_pos h1, h2]

example : attemptDecode b!"zz" = .ok b!"zz" ∧ attemptDecode b!"7a7a" = .ok b!"zz" ∧ attemptDecode b!"eno=" = .ok b!"zz" := by
  decide +kernel

/-- Three zero bytes in base64 are taken for hexadecimal. -/
example : b64 [0, 0, 0] = b!"AAAA" ∧ attemptDecode b!"AAAA" = .ok [170, 170] := by decide +kernel

end Verif.Props
