import Verif.Text.Session
import Verif.Text.MiscLemmas
import Verif.Props.Lib
/-
Properties C41-C45, C55, C59: the text formats, spdy3 blocks and varints.
-/
namespace Verif.Props
open Verif Verif.Text Verif.Text.Spec

/-! ### C41: seven-bit packing -/

/-- C41: what decoding the seven-bit form of an ASCII text gives. -/
theorem C41_seven_exact (t : Str) (ht : ∀ c ∈ t, c < 128) :
    sevenDecode (sevenEncode t) = if t.length % 8 = 0 then t.dropLast else t :=
  seven_round_trip t ht

/-- C41: the text comes back exactly when it is empty or its length is not a multiple of 8. -/
theorem C41_seven_partial (t : Str) (ht : ∀ c ∈ t, c < 128) :
    sevenDecode (sevenEncode t) = t ↔ t = [] ∨ t.length % 8 ≠ 0 := by
  rw [C41_seven_exact t ht]
  constructor
  · intro h
    by_cases h0 : t.length % 8 = 0
    · rw [if_pos h0] at h
      left
      have := congrArg List.length h
      rw [List.length_dropLast] at this
      exact List.length_eq_zero_iff.1 (by omega)
    · exact .inr h0
  · rintro (rfl | h)
    · rfl
    · rw [if_neg h]

/-- C41 is false in general: the eighth character of "abcdefgh" is lost. -/
theorem C41_seven_false : ∃ t : Str, (∀ c ∈ t, c < 128) ∧ sevenDecode (sevenEncode t) ≠ t := by
  refine ⟨b!"abcdefgh", by decide, ?_⟩
  rw [Ne, C41_seven_partial _ (by decide)]
  decide

example : sevenDecode (sevenEncode b!"hello") = b!"hello" := (C41_seven_partial _ (by decide)).2 (by decide)

/-! ### C42, C43: http1 -/

theorem http1_good {lower : Str → Str} {ws : Nat → Bool} (hws : Blank ws) (hl : lower b!"host" = b!"host") :
    GoodFmt lower ws defaultFmt [13] [32] where
  delim := rfl
  rws := by simp [hws.cr]
  r10 := by decide
  vsep := rfl
  spws := by simp [hws.space]
  sp10 := by decide
  hostName := ⟨by decide, hl, by decide, .inl (by decide)⟩
  hostNoColon := by decide
  ver := ⟨by decide, by
    intro c hc
    simp only [defaultFmt, List.mem_cons, List.not_mem_nil, or_false] at hc
    rcases hc with rfl | rfl | rfl | rfl | rfl | rfl | rfl | rfl <;> exact hws.visible _ (by decide) (by decide)⟩

/-- C42: the http1 codec gives back the headers it was given; the version is HTTP/1.1 and (in a
response) the status text is "?" if there was none. -/
theorem C42_http1_round_trip (lower : Str → Str) (ws : Nat → Bool) (hws : Blank ws) (hl : lower b!"host" = b!"host")
    (isRequest : Bool) (h : Dict Str Str) (hm : Message lower ws isRequest b!"host" h) :
    ∃ out, http1Decompress lower ws isRequest (http1Compress h) = .ok out ∧ Decoded isRequest b!"HTTP/1.1" h out :=
  round_trip hws (http1_good hws hl) hm

/-- C42: so the tester reports no difference. -/
theorem C42_http1_no_mismatch (lower : Str → Str) (ws : Nat → Bool) (hws : Blank ws) (hl : lower b!"host" = b!"host")
    (isRequest : Bool) (h : Dict Str Str) (hm : Message lower ws isRequest b!"host" h)
    (ord : List Hdr → List Hdr) (hord : ∀ l, (ord l).Perm l) (n1 n2 : Str) :
    ∃ out, http1Decompress lower ws isRequest (http1Compress h) = .ok out ∧ Lib.compareHeaders ord h n1 out n2 = [] := by
  obtain ⟨out, h1, h2⟩ := C42_http1_round_trip lower ws hws hl isRequest h hm
  exact ⟨out, h1, (C46_compare_headers_iff ord hord h out n1 n2).2 (same_equiv hm.wf (decoded_same h2))⟩

/-- Two requests and a response, in the form the codec gets them. -/
def sampleReq : Dict Str Str := [(b!"cookie", b!"a=b; c"), (b!":path", b!"/x?y=z"), (b!":host", b!"example.com:80"),
  (b!":method", b!"GET"), (b!"accept", [98, 0, 99]), (b!":scheme", b!"http"), (b!"x-empty", [])]

def sampleReq2 : Dict Str Str := [(b!"cookie", b!"a=b; c"), (b!":path", b!"/q"), (b!":host", b!"example.com:80"),
  (b!":method", b!"GET"), (b!"accept", [98]), (b!"x-new", b!"1")]

def sampleRes : Dict Str Str := [(b!":status", b!"200"), (b!":status-text", b!"Very OK"), (b!"set-cookie", [97, 0, 98]),
  (b!":version", b!"HTTP/1.0"), (b!"date", b!"Mon, 01 Jan 2001 00:00:00 GMT")]

example : http1Decompress lower isWs true (http1Compress sampleReq) = .ok
    [(b!"cookie", b!"a=b; c"), (b!"accept", [98, 0, 99]), (b!":scheme", b!"http"), (b!"x-empty", []),
     (b!":method", b!"GET"), (b!":path", b!"/x?y=z"), (b!":version", b!"HTTP/1.1"), (b!":host", b!"example.com:80")] := by
  decide +kernel

theorem value_check {ws : Nat → Bool} {v : Str} (h10 : 10 ∉ v)
    (h : (splitOn 0 v).all (fun p => !(p.head?.any ws) && !(p.getLast?.any ws)) = true) : Value ws v := by
  refine ⟨h10, ?_⟩
  intro a p b e ha hb h0
  have := List.all_eq_true.1 h p (Lib.mem_splitOn.2 ⟨h0, a, b, e, ha, hb⟩)
  simp only [Bool.and_eq_true, Bool.not_eq_true', Option.any_eq_false] at this
  exact ⟨fun c hc => by simpa using this.1 c hc, fun c hc => by simpa using this.2 c hc⟩

theorem name_check {lower : Str → Str} {k : Str} (h1 : k ≠ []) (h2 : lower k = k) (h3 : 10 ∉ k)
    (h4 : 58 ∉ k ∨ (k.head? = some 58 ∧ 58 ∉ k.tail)) : Name lower k := by
  refine ⟨h1, h2, h3, ?_⟩
  rcases h4 with h4 | ⟨h4, h5⟩
  · exact .inl h4
  · right
    cases k with
    | nil => exact absurd rfl h1
    | cons c cs => simp only [List.head?_cons, Option.some.injEq] at h4; subst h4; exact ⟨cs, rfl, h5⟩

theorem sample_message : Message lower isWs true b!"host" sampleReq where
  wf := by unfold Dict.WF; decide +kernel
  kind := by decide +kernel
  names := by
    intro k v hkv _
    have : ∀ kv ∈ sampleReq, kv.1 ≠ [] ∧ lower kv.1 = kv.1 ∧ 10 ∉ kv.1 ∧
        (58 ∉ kv.1 ∨ (kv.1.head? = some 58 ∧ 58 ∉ kv.1.tail)) := by decide +kernel
    obtain ⟨h1, h2, h3, h4⟩ := this _ hkv
    exact name_check h1 h2 h3 h4
  values := by
    intro k v hkv _
    have : ∀ kv ∈ sampleReq, 10 ∉ kv.2 ∧
        (splitOn 0 kv.2).all (fun p => !(p.head?.any isWs) && !(p.getLast?.any isWs)) = true := by decide +kernel
    exact value_check (this _ hkv).1 (this _ hkv).2
  method := by
    intro v _ hv
    have : v = b!"GET" := by
      simp only [sampleReq, List.mem_cons, Prod.mk.injEq, List.not_mem_nil, or_false] at hv
      rcases hv with h | h | h | h | h | h | h <;> first | exact h.2 | exact absurd h.1 (by decide)
    subst this
    exact ⟨by decide, by decide⟩
  path := fun _ => ⟨b!"/x?y=z", by decide, by decide, by decide⟩
  status := by intro h; exact absurd h (by decide)
  version := by
    intro v hv
    exact absurd (List.mem_map.2 ⟨_, hv, rfl⟩ : b!":version" ∈ sampleReq.map Prod.fst) (by decide)
  text := by intro v h; exact absurd h (by decide)
  noHost := by decide
  noPseudoHost := by intro h; exact absurd h (by decide)

/-- The hypotheses of C42 are met by an ordinary request. -/
example : Blank isWs ∧ lower b!"host" = b!"host" ∧ Message lower isWs true b!"host" sampleReq :=
  ⟨isWs_blank, by decide, sample_message⟩

/-- C43: a request with a path is processed. -/
theorem C43_path_partial (lower : Str → Str) (ws : Nat → Bool) (hws : Blank ws) (hl : lower b!"host" = b!"host")
    (h : Dict Str Str) (hm : Message lower ws true b!"host" h) :
    ∃ out, http1Decompress lower ws true (http1Compress h) = .ok out ∧ ∃ p, p ≠ [] ∧ out.get? b!":path" = some p := by
  obtain ⟨out, h1, h2⟩ := C42_http1_round_trip lower ws hws hl true h hm
  obtain ⟨p, hp, hw⟩ := hm.path rfl
  refine ⟨out, h1, p, hw.1, ?_⟩
  rw [h2.2, if_neg (by decide), if_neg (by simp)]
  exact (get?_some_iff hm.wf).2 hp

/-- C43 is false: replace the path of any good request by the empty path (a URL without path), and
decompressing raises IndexError. -/
theorem C43_empty_path_false (lower : Str → Str) (ws : Nat → Bool) (hws : Blank ws) (hl : lower b!"host" = b!"host")
    (a b : Dict Str Str) (p : Str) (hm : Message lower ws true b!"host" (a ++ (b!":path", p) :: b))
    (hv : ∀ v, (b!":version", v) ∈ a ++ (b!":path", p) :: b → Word ws v) :
    http1Decompress lower ws true (http1Compress (a ++ (b!":path", []) :: b)) = .error .index :=
  empty_path hws (http1_good hws hl) hm hv

example : http1Compress [(b!":method", b!"GET"), (b!":path", []), (b!":host", b!"example.com")] =
    b!"GET  HTTP/1.1\r\nhost: example.com\r\n\r\n" ∧
    http1Decompress lower isWs true b!"GET  HTTP/1.1\r\nhost: example.com\r\n\r\n" = .error .index := by
  decide +kernel

/-! ### C44: simple -/

/-- C44: every session of the simple codec (any limit on references, with or without seven-bit
packing, dictionaries in any order) decodes to the headers that were sent, apart from `:version` and
`:status-text`.  Missing: messages with a header named `h`, responses with a header `:host`, and
header names containing commas (`SimpleMsg`). -/
theorem C44_session_partial (ord : Dict Str Str → Dict Str Str) (hord : ∀ d, (ord d).Perm d) (maxEntries : Int)
    (seven isRequest : Bool) (hs : List (Dict Str Str)) (hm : ∀ h ∈ hs, SimpleMsg isRequest h)
    (ha : seven = true → ∀ h ∈ hs, Ascii h) :
    ∃ outs, simpleSession none ord (simpleInit maxEntries seven isRequest) hs = .ok outs ∧ List.Forall₂ Same hs outs := by
  have := session_spec (D := none) (by rintro d ⟨⟩) ord hord hs (simpleInit maxEntries seven isRequest)
    (by intro h; exact absurd h (by simp [simpleInit, truthy])) hm ha
  simpa only [normAll_none] using this

/-- C44: so the tester reports no difference. -/
theorem C44_no_mismatch_partial (ord : Dict Str Str → Dict Str Str) (hord : ∀ d, (ord d).Perm d) (maxEntries : Int)
    (seven isRequest : Bool) (hs : List (Dict Str Str)) (hm : ∀ h ∈ hs, SimpleMsg isRequest h)
    (ha : seven = true → ∀ h ∈ hs, Ascii h) (ord' : List Hdr → List Hdr) (hord' : ∀ l, (ord' l).Perm l) (n1 n2 : Str) :
    ∃ outs, simpleSession none ord (simpleInit maxEntries seven isRequest) hs = .ok outs ∧
      List.Forall₂ (fun h out => Lib.compareHeaders ord' h n1 out n2 = []) hs outs := by
  obtain ⟨outs, h1, h2⟩ := C44_session_partial ord hord maxEntries seven isRequest hs hm ha
  refine ⟨outs, h1, ?_⟩
  clear h1 ha
  induction h2 with
  | nil => exact .nil
  | @cons h out hs outs hho _ ih =>
    refine .cons ?_ (ih fun x hx => hm x (by simp [hx]))
    exact (C46_compare_headers_iff ord' hord' h out n1 n2).2 (same_equiv (hm h (by simp)).wf hho)

theorem simpleMsg_check {h : Dict Str Str} (hwf : h.keys.Nodup) (m p : Str) (hmet : h.get? b!":method" = some m)
    (hpath : h.get? b!":path" = some p) (hmw : Word isWs m) (hpw : Word isWs p)
    (hn : ∀ kv ∈ h, kv.1 ≠ [] ∧ lower kv.1 = kv.1 ∧ 10 ∉ kv.1 ∧ (58 ∉ kv.1 ∨ (kv.1.head? = some 58 ∧ 58 ∉ kv.1.tail)))
    (hp : ∀ kv ∈ h, kv.1.head? ≠ some 58 → (kv.1 ≠ [] ∧ ∀ c ∈ kv.1, isWs c = false) ∧ 44 ∉ kv.1 ∧ kv.1 ≠ b!"h")
    (hv : ∀ kv ∈ h, 10 ∉ kv.2 ∧ (splitOn 0 kv.2).all (fun p => !(p.head?.any isWs) && !(p.getLast?.any isWs)) = true) :
    SimpleMsg true h where
  wf := hwf
  kind := ⟨fun _ => rfl, fun _ => List.mem_map.2 ⟨_, Dict.get?_mem hmet, rfl⟩⟩
  names := by
    intro k hk
    obtain ⟨kv, hkv, rfl⟩ := List.mem_map.1 hk
    obtain ⟨h1, h2, h3, h4⟩ := hn kv hkv
    exact name_check h1 h2 h3 h4
  plain := by
    intro k hk hc
    obtain ⟨kv, hkv, rfl⟩ := List.mem_map.1 hk
    exact hp kv hkv hc
  values := fun k v hkv _ _ => value_check (hv _ hkv).1 (hv _ hkv).2
  method := by
    intro v _ hmem
    have : h.get? b!":method" = some v := (get?_some_iff hwf).2 hmem
    rw [hmet] at this
    cases this; exact hmw
  path := fun _ => ⟨p, Dict.get?_mem hpath, hpw⟩
  status := by intro hq; exact absurd hq (by decide)
  noPseudoHost := by intro hq; exact absurd hq (by decide)

/-- The hypotheses are met by two ordinary requests, the second of which refers to the first. -/
theorem sample_session : ∀ h ∈ [sampleReq, sampleReq2], SimpleMsg true h ∧ Ascii h := by
  have ascii : ∀ h ∈ [sampleReq, sampleReq2], Ascii h := by
    intro h hh k v hkv
    have : ∀ h ∈ [sampleReq, sampleReq2], ∀ kv ∈ h, (∀ c ∈ kv.1, c < 128) ∧ ∀ c ∈ kv.2, c < 128 := by decide +kernel
    exact this h hh _ hkv
  intro h hh
  refine ⟨?_, ascii h hh⟩
  simp only [List.mem_cons, List.not_mem_nil, or_false] at hh
  rcases hh with rfl | rfl
  · exact simpleMsg_check (by decide +kernel) b!"GET" b!"/x?y=z" (by decide +kernel) (by decide +kernel)
      ⟨by decide, by decide⟩ ⟨by decide, by decide⟩ (by decide +kernel) (by decide +kernel) (by decide +kernel)
  · exact simpleMsg_check (by decide +kernel) b!"GET" b!"/q" (by decide +kernel) (by decide +kernel)
      ⟨by decide, by decide⟩ ⟨by decide, by decide⟩ (by decide +kernel) (by decide +kernel) (by decide +kernel)

/-- The second message really contains references. -/
example : (do
      let (st, c) ← simpleCompress none id (simpleInit 9999999999 false true) sampleReq
      let (st, _) ← simpleDecompress none id st c
      let (_, c) ← simpleCompress none id st sampleReq2
      pure c) = .ok b!"GET /q H/2\na:b\n!x-new:1\nref:c,!h\n\n" := by decide +kernel

/-- C44 is false for a header named `h`: it comes back as `:host`. -/
theorem C44_header_h_false :
    simpleSession none id (simpleInit 9999999999 false true) [[(b!":method", b!"GET"), (b!":path", b!"/"), (b!"h", b!"1")]] =
      .ok [[(b!":method", b!"GET"), (b!":path", b!"/"), (b!":version", b!"H/2"), (b!":host", b!"1")]] := by
  decide +kernel

/-- C44 is false for responses with a header `:host`: sent twice, decompressing raises KeyError. -/
theorem C44_response_host_false :
    simpleSession none id (simpleInit 9999999999 false false) [[(b!":status", b!"200"), (b!":host", b!"1")],
      [(b!":status", b!"200"), (b!":host", b!"1")]] = .error .key := by
  decide +kernel

/-- C44 is false for header names with commas: the second time decompressing raises KeyError. -/
theorem C44_comma_false :
    simpleSession none id (simpleInit 9999999999 false false) [[(b!":status", b!"200"), (b!"a,b", b!"1")],
      [(b!":status", b!"200"), (b!"a,b", b!"1")]] = .error .key := by
  decide +kernel

/-! ### C45, C59: spdy3 -/

/-- C45: a header block is written exactly for ASCII headers shorter than 2^32, and the reference
reader reads the headers back from it, whatever follows. -/
theorem C45_block_readable (l : List (Str × Str)) (s : Str) (h : spdy3Format l = .ok s) (rest : List Nat) :
    readBlock l.length (s ++ rest) = some (l, rest) :=
  readBlock_format l h rest

theorem C45_block_written (l : List (Str × Str)) : (∃ s, spdy3Format l = .ok s) ↔
    ∀ k v, (k, v) ∈ l → (∀ c ∈ k, c < 128) ∧ (∀ c ∈ v, c < 128) ∧ k.length < 2 ^ 32 ∧ v.length < 2 ^ 32 :=
  format_ok_iff l

/-- C45: the same block, the same headers (the number of headers is not needed for that). -/
theorem C45_block_unique (l m : List (Str × Str)) (s : Str) (hl : spdy3Format l = .ok s) (hm : spdy3Format m = .ok s) :
    l = m := by
  have key : ∀ (l m : List (Str × Str)) (s : Str), l.length ≤ m.length → spdy3Format l = .ok s → spdy3Format m = .ok s → l = m := by
    intro l m s hle hl hm
    have h1 := readBlock_format l hl []
    have h2 : ∃ t, readBlock l.length (s ++ []) = some (m.take l.length, t) ∧ (l.length < m.length → t ≠ []) := by
      have hsplit : ∀ (m : List (Str × Str)) (n : Nat) (s : Str), n ≤ m.length → spdy3Format m = .ok s →
          ∃ t, readBlock n s = some (m.take n, t) ∧ (n < m.length → t ≠ []) := by
        intro m
        induction m with
        | nil =>
          intro n s hn hs
          have : n = 0 := by simpa using hn
          subst this
          exact ⟨s, rfl, by simp⟩
        | cons kv m ih =>
          obtain ⟨k, v⟩ := kv
          intro n s hn hs
          obtain ⟨a, b, ha, hb, rfl⟩ := format_cons hs
          obtain ⟨x, y, hx, hy, rfl, _⟩ := header_ok ha
          cases n with
          | zero =>
            refine ⟨_, rfl, fun _ => ?_⟩
            intro hc
            have hw := word32_packL hx []
            have hx0 : x = [] := by
              have := congrArg List.length hc
              simp only [List.length_append, List.length_nil] at this
              exact List.length_eq_zero_iff.1 (by omega)
            rw [hx0] at hw
            simp [word32] at hw
          | succ n =>
            obtain ⟨t, ht, htn⟩ := ih n b (by simpa using hn) hb
            refine ⟨t, ?_, fun h => htn (by simpa using h)⟩
            simp only [readBlock, List.append_assoc]
            rw [field_read hx, Option.bind_some, field_read hy, Option.bind_some, ht]
            rfl
      rw [List.append_nil]
      exact hsplit m l.length s hle hm
    obtain ⟨t, ht, htn⟩ := h2
    rw [h1] at ht
    simp only [Option.some.injEq, Prod.mk.injEq] at ht
    by_cases hlt : l.length < m.length
    · exact absurd ht.2.symm (htn hlt)
    · rw [ht.1, List.take_of_length_le (by omega)]
  rcases Nat.le_total l.length m.length with h | h
  · exact key l m s h hl hm
  · exact (key m l s h hm hl).symm

example : spdy3Format [(b!":m", b!"GET"), (b!"a", [])] =
    .ok ([0, 0, 0, 2] ++ b!":m" ++ [0, 0, 0, 3] ++ b!"GET" ++ [0, 0, 0, 1] ++ b!"a" ++ [0, 0, 0, 0]) := by decide

/-- C59: the first twelve bytes of the frame are the first twelve bytes of the header block,
uncompressed; with a decompressor for the rest the whole block can be read.  (The twelve bytes were
meant to be the frame header, which is no longer written.) -/
theorem C59_twelve_raw {σ : Type} (zip : σ → Str → σ × Str) (z z' : σ) (items : List (Str × Str)) (c : Str)
    (h : spdy3Compress zip z items = .ok (z', c)) :
    ∃ raw, spdy3Format items = .ok raw ∧ z' = (zip z (raw.drop 12)).1 ∧
      (12 ≤ raw.length → c.take 12 = raw.take 12 ∧ c.drop 12 = (zip z (raw.drop 12)).2 ∧
        ∀ unzip : Str → Str, (∀ x, unzip (zip z x).2 = x) →
          readBlock items.length (c.take 12 ++ unzip (c.drop 12)) = some (items, [])) := by
  unfold spdy3Compress at h
  simp only [bind, Except.bind, pure, Except.pure] at h
  split at h
  · exact absurd h (by simp)
  rename_i raw hraw
  simp only [Except.ok.injEq, Prod.mk.injEq] at h
  refine ⟨raw, hraw, h.1.symm, fun h12 => ?_⟩
  have e1 : c.take 12 = raw.take 12 := by
    rw [← h.2, List.take_left' (by simp [h12])]
  have e2 : c.drop 12 = (zip z (raw.drop 12)).2 := by
    rw [← h.2, List.drop_left' (by simp [h12])]
  refine ⟨e1, e2, fun unzip hu => ?_⟩
  rw [e1, e2, hu, List.take_append_drop]
  have := readBlock_format items hraw []
  rwa [List.append_nil] at this

/-- C59: so a method in front is sent uncompressed whatever zlib does. -/
example {σ : Type} (zip : σ → Str → σ × Str) (z : σ) :
    spdy3Compress zip z [(b!"abc", b!"defgh")] =
      .ok ((zip z b!"efgh").1, [0, 0, 0, 3] ++ b!"abc" ++ [0, 0, 0, 5] ++ b!"d" ++ (zip z b!"efgh").2) := by
  rfl

/-! ### C55: varints -/

/-- C55: the reference reader recovers the number (0 for negative ones), whatever follows. -/
theorem C55_uvarint_readable (v : Int) (rest : List Nat) :
    readLeb (uvarint v ++ rest) = some ((max 0 v).toNat, rest) :=
  uvarintLoop_read _ _ (Nat.lt_succ_self _) rest

/-- C55: the encoding consists of bytes. -/
theorem C55_uvarint_bytes (v : Int) : ∀ b ∈ uvarint v, b < 256 := uvarintLoop_bytes _ _

/-- C55: no encoding is a prefix of another one. -/
theorem C55_uvarint_prefix_free (v w : Nat) (rest : List Nat) (h : uvarint v ++ rest = uvarint w) : v = w ∧ rest = [] := by
  have h1 := C55_uvarint_readable v rest
  have h2 := C55_uvarint_readable w []
  rw [h] at h1
  rw [List.append_nil, h1] at h2
  simp only [Option.some.injEq, Prod.mk.injEq] at h2
  refine ⟨?_, h2.2⟩
  have := h2.1
  omega

/-- C55: a header value with NUL-separated numbers is the sequence of their encodings, and the
empty value is 0. -/
theorem C55_enc_uvarint (int : Str → Py Int) (val : Str) (s : Str) (h : encUvarint int val = .ok s) :
    (val = [] ∧ s = uvarint 0) ∨ (val ≠ [] ∧ ∃ ns, List.Forall₂ (fun p n => int p = .ok n) (splitOn 0 val) ns ∧
      s = ns.flatMap uvarint) := by
  unfold encUvarint at h
  split at h
  · rename_i hv
    cases h; exact .inl ⟨hv, rfl⟩
  · rename_i hv
    right
    refine ⟨hv, ?_⟩
    have key : ∀ (l : List Str) (ns : List Int), l.mapM int = .ok ns → List.Forall₂ (fun p n => int p = .ok n) l ns := by
      intro l
      induction l with
      | nil => intro ns h; cases h; exact .nil
      | cons p l ih =>
        intro ns h
        rw [List.mapM_cons] at h
        simp only [bind, Except.bind, pure, Except.pure] at h
        split at h
        · exact absurd h (by simp)
        rename_i n hn
        split at h
        · exact absurd h (by simp)
        rename_i ns' hns'
        cases h
        exact .cons hn (ih ns' hns')
    simp only [bind, Except.bind, pure, Except.pure] at h
    split at h
    · exact absurd h (by simp)
    rename_i ns hns
    cases h
    exact ⟨ns, key _ _ hns, rfl⟩

example : uvarint 300 = [172, 2] ∧ uvarint 0 = [0] ∧ uvarint (-5) = [0] := by decide +kernel

end Verif.Props
