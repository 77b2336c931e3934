import Verif.HeaderDiff.Cut
/-
What the decoder of headerdiff makes of any list of bytes, and how large its tables become.
-/
namespace Verif.HeaderDiff
open Verif

/-- A reader ends with a result or the end of the input, and never goes back. -/
def Reads {α : Type} (r : Py (α × List Nat)) (s : List Nat) : Prop :=
  match r with
  | .ok (_, rest) => rest.length ≤ s.length
  | .error e => e = .index

theorem readByte_reads (s : List Nat) : Reads (readByte s) s := by
  cases s with
  | nil => rfl
  | cons x s => simp [readByte, Reads]

theorem readLoop_reads (s : List Nat) : ∀ value f, Reads (readLoop s value f) s := by
  induction s with
  | nil => intro v f; rfl
  | cons b s ih =>
    intro value f
    unfold readLoop
    split
    · have := ih (value + (b &&& 0x7f) * f) (f * 128)
      revert this
      cases readLoop s (value + (b &&& 0x7f) * f) (f * 128) with
      | error e => exact id
      | ok q => obtain ⟨v, r⟩ := q; simp [Reads]; omega
    · simp [Reads]

theorem readInteger_reads (b : Nat) {p : Nat} (hp : p ∈ [0, 4, 5, 14]) (s : List Nat) : Reads (readInteger b p s) s := by
  have key : ∀ m, maxValue p = .ok m → p ≤ 8 → Reads (readInteger b p s) s := by
    intro m hm h8
    simp only [readInteger, readPrefix, if_pos h8, hm, bind, Except.bind]
    split
    · exact readLoop_reads s _ _
    · simp [Reads]
  simp only [List.mem_cons, List.not_mem_nil, or_false] at hp
  rcases hp with rfl | rfl | rfl | rfl
  · exact key _ rfl (by omega)
  · exact key _ rfl (by omega)
  · exact key _ rfl (by omega)
  · obtain ⟨M, _, hM⟩ := max14
    have h6 : maxValue (14 - 8) = .ok 63 := rfl
    have h8 : maxValue 8 = .ok 255 := rfl
    simp only [readInteger, readPrefix, if_neg (show ¬ 14 ≤ 8 by omega), h6, h8, hM, bind, Except.bind]
    cases s with
    | nil => rfl
    | cons x s =>
      simp only [readByte]
      split
      · have := readLoop_reads s M 1
        revert this
        cases readLoop s M 1 with
        | error e => exact id
        | ok q => obtain ⟨v, r⟩ := q; simp [Reads]; omega
      · simp [Reads]

theorem nextBit_err {d : BitDecoder} {e : PyErr} (h : d.nextBit = .error e) : e = .index := by
  unfold BitDecoder.nextBit at h
  by_cases hb : d.bit ≥ 8
  · rw [if_pos hb] at h
    cases hc : d.code[d.index]? with
    | none => simp [hc, bind, Except.bind] at h; exact h.symm
    | some c =>
      simp only [hc, bind, Except.bind, masks, List.getElem?_cons_zero] at h
      cases h
  · rw [if_neg hb] at h
    simp only [bind, Except.bind] at h
    cases hm : masks[d.bit]? with
    | none => simp [hm] at h; exact h.symm
    | some m => simp [hm] at h

theorem descend_err (t : Node) : ∀ {d : BitDecoder} {e : PyErr}, t.descend d = .error e → e = .index := by
  induction t with
  | leaf p s => intro d e h; cases h
  | inner p a b iha ihb =>
    intro d e h
    unfold Node.descend at h
    cases hn : d.nextBit with
    | error e' =>
      simp only [hn, bind, Except.bind, Except.error.injEq] at h
      subst h
      exact nextBit_err hn
    | ok q =>
      simp only [hn, bind, Except.bind] at h
      split at h
      · exact ihb h
      · exact iha h

/-- The loop over a string: as many steps as there are bits. -/
theorem hloop_any {h : HCodec} (hroot : ∃ p a b, h.root = Node.inner p a b) (fuel : Nat) : ∀ {d : BitDecoder} {res : Str},
    d.bit ≤ 8 → d.index ≤ d.code.length → 8 * d.code.length + 9 ≤ fuel + (8 * d.index + d.bit) →
    match h.decodeLoop fuel d res with
    | .ok (out, d') => d'.bit ≤ 8 ∧ out.length + (8 * d.index + d.bit) ≤ res.length + (8 * d'.index + d'.bit)
    | .error e => e = .index := by
  induction fuel with
  | zero => intro d res h8 hi hf; omega
  | succ fuel ih =>
    intro d res h8 hi hf
    unfold HCodec.decodeLoop
    cases hn : h.root.descend d with
    | error e => simp only [bind, Except.bind]; exact descend_err _ hn
    | ok q =>
      obtain ⟨last, d1⟩ := q
      obtain ⟨e1, e2, e3, _, e4, _⟩ := descend_cut h.root hn h8
      have e4 := e4 hroot
      have hlen : (if last < 256 then res ++ [last] else res).length ≤ res.length + 1 := by split <;> simp
      simp only [bind, Except.bind]
      by_cases h6 : last = 256
      · simp only [if_pos h6]
        exact ⟨e3, by omega⟩
      · simp only [if_neg h6]
        have hi1 : d1.index ≤ d1.code.length := by
          rw [e1]
          exact (descend_index _ hn hi).2
        have := ih (d := d1) (res := if last < 256 then res ++ [last] else res) e3 hi1 (by rw [e1]; omega)
        revert this
        cases h.decodeLoop fuel d1 (if last < 256 then res ++ [last] else res) with
        | error e => exact id
        | ok q =>
          obtain ⟨out, d'⟩ := q
          simp only
          intro ⟨k1, k2⟩
          exact ⟨k1, by omega⟩

theorem readString_any {cfg : Cfg} (hco : CoderOk cfg) (s : List Nat) :
    match readString cfg s with
    | .ok (v, rest) => v.length + 8 * rest.length ≤ 8 * s.length
    | .error e => e = .index := by
  unfold readString
  cases hh : cfg.huffman with
  | none =>
    simp only
    have := readInteger_reads 0 (p := 0) (by simp) s
    revert this
    cases readInteger 0 0 s with
    | error e => exact id
    | ok q =>
      obtain ⟨n, r⟩ := q
      simp only [Reads, bind, Except.bind, List.length_take, List.length_drop]
      omega
  | some h =>
    obtain ⟨syms, hc⟩ := hco h hh
    simp only [HCodec.decode]
    have := hloop_any hc.root (8 * s.length + 1) (d := BitDecoder.reset s) (res := []) (by simp [BitDecoder.reset])
      (by simp [BitDecoder.reset]) (by simp [BitDecoder.reset])
    revert this
    cases hl : h.decodeLoop (8 * s.length + 1) (BitDecoder.reset s) [] with
    | error e => exact id
    | ok q =>
      obtain ⟨out, d'⟩ := q
      have hi := hdecode_index _ hl (by simp [BitDecoder.reset])
      simp only [BitDecoder.reset] at hi
      simp only [bind, Except.bind, List.length_drop, BitDecoder.reset, List.length_nil]
      omega

/-- The texts that a decoder holds are at most `B` long. -/
structure Within (B : Nat) (d : Dec) : Prop where
  headers : ∀ h ∈ d.headers, h.1.length ≤ B ∧ h.2.length ≤ B
  names : ∀ n ∈ d.names, n.length ≤ B

theorem Within.mono {B B' : Nat} {d : Dec} (h : Within B d) (hb : B ≤ B') : Within B' d :=
  ⟨fun x hx => ⟨(h.headers x hx).1.trans hb, (h.headers x hx).2.trans hb⟩, fun n hn => (h.names n hn).trans hb⟩

/-- The result of one header read from `s`. -/
def Step (B : Nat) (d : Dec) (s : List Nat) (r : Py (Dec × Hdr × List Nat)) : Prop :=
  match r with
  | .ok (d', h, rest) => rest.length ≤ s.length ∧ (∀ B', B + 8 * s.length ≤ B' + 8 * rest.length →
      h.1.length ≤ B' ∧ h.2.length ≤ B' ∧ Within B' d') ∧ d'.headers.length ≤ d.headers.length + 1 ∧ d'.names.length ≤ d.names.length + 1
  | .error e => e = .index

theorem item_any {α : Type} (l : List α) (i : Nat) : (∃ a ∈ l, item l i = .ok a) ∨ item l i = .error .index := by
  unfold item
  cases h : l[i]? with
  | none => exact Or.inr rfl
  | some a => exact Or.inl ⟨a, List.mem_of_getElem? h, rfl⟩

theorem decodeIndexing_any {d : Dec} {B : Nat} (hd : Within B d) (sub inc : Bool) (ref : Nat) (h : Hdr) (h1 : h.1.length ≤ B)
    (h2 : h.2.length ≤ B) :
    (∃ d', decodeIndexing d sub inc ref h = .ok d' ∧ Within B d' ∧ d'.headers.length ≤ d.headers.length + 1 ∧ d'.names = d.names) ∨
      decodeIndexing d sub inc ref h = .error .index := by
  unfold decodeIndexing
  cases sub with
  | true =>
    rcases item_any d.headers ref with ⟨a, _, e⟩ | e
    · refine Or.inl ⟨{ d with headers := d.headers.set ref h, size := d.size + ((h.2.length : Int) - a.2.length) },
        by simp only [if_true, e, bind, Except.bind], ⟨fun x hx => ?_, hd.names⟩, by simp, rfl⟩
      rcases List.mem_or_eq_of_mem_set hx with hx | rfl
      · exact hd.headers x hx
      · exact ⟨h1, h2⟩
    · exact Or.inr (by simp only [if_true, e, bind, Except.bind])
  | false =>
    cases inc with
    | true =>
      refine Or.inl ⟨_, rfl, ⟨fun x hx => ?_, hd.names⟩, by simp, rfl⟩
      rcases List.mem_append.1 hx with hx | hx
      · exact hd.headers x hx
      · rw [List.mem_singleton] at hx
        subst hx
        exact ⟨h1, h2⟩
    | false => exact Or.inl ⟨d, rfl, hd, by omega, rfl⟩

theorem decodeIndexed_any {B : Nat} {d : Dec} (hd : Within B d) (b0 : Nat) (s : List Nat) :
    match decodeIndexed d b0 s with
    | .ok (h, rest) => rest.length ≤ s.length ∧ h ∈ d.headers
    | .error e => e = .index := by
  unfold decodeIndexed
  by_cases hb : b0 &&& 0x40 ≠ 0
  · rw [if_pos hb]
    have := readInteger_reads b0 (p := 14) (by simp) s
    revert this
    cases readInteger b0 14 s with
    | error e => exact id
    | ok q =>
      obtain ⟨i, r⟩ := q
      simp only [Reads, bind, Except.bind]
      intro hr
      rcases item_any d.headers (i + 64) with ⟨a, ha, e⟩ | e
      · simp only [e]; exact ⟨hr, ha⟩
      · simp only [e]
  · rw [if_neg hb]
    simp only [bind, Except.bind]
    rcases item_any d.headers (b0 &&& 0x3f) with ⟨a, ha, e⟩ | e
    · simp only [e]; exact ⟨Nat.le_refl _, ha⟩
    · simp only [e]

theorem valuePart_any {cfg : Cfg} (hco : CoderOk cfg) {B : Nat} {d : Dec} (hd : Within B d) (b0 : Nat) (sub inc : Bool) {name : Str}
    (hn : name.length ≤ B) (s : List Nat) :
    match valuePart cfg b0 sub inc d name s with
    | .ok (d', h, rest) => rest.length ≤ s.length ∧ (∀ B', B + 8 * s.length ≤ B' + 8 * rest.length →
        h.1.length ≤ B' ∧ h.2.length ≤ B' ∧ Within B' d') ∧ d'.headers.length ≤ d.headers.length + 1 ∧ d'.names = d.names
    | .error e => e = .index := by
  have tail : ∀ ref r, r.length ≤ s.length → match (do
        let (value, s) ← readString cfg r
        let d ← decodeIndexing d sub inc ref (name, value)
        .ok (d, (name, value), s) : Py (Dec × Hdr × List Nat)) with
      | .ok (d', h, rest) => rest.length ≤ s.length ∧ (∀ B', B + 8 * s.length ≤ B' + 8 * rest.length →
        h.1.length ≤ B' ∧ h.2.length ≤ B' ∧ Within B' d') ∧ d'.headers.length ≤ d.headers.length + 1 ∧ d'.names = d.names
      | .error e => e = .index := by
    intro ref r hr
    have := readString_any hco r
    revert this
    cases readString cfg r with
    | error e => exact id
    | ok q =>
      obtain ⟨v, r'⟩ := q
      simp only [bind, Except.bind]
      intro hv
      rcases decodeIndexing_any (hd.mono (B' := max B v.length) (by omega)) sub inc ref (name, v) (by simp only; omega) (by simp only; omega) with
        ⟨d', e, k1, k2, k3⟩ | e
      · simp only [e]
        exact ⟨by omega, fun B' hB => ⟨by omega, by omega, k1.mono (by omega)⟩, k2, k3⟩
      · simp only [e]
  unfold valuePart
  cases sub with
  | false => exact tail 0 s (Nat.le_refl _)
  | true =>
    simp only [if_true]
    have := readInteger_reads b0 (p := 0) (by simp) s
    revert this
    cases readInteger b0 0 s with
    | error e => exact id
    | ok q =>
      obtain ⟨i, r⟩ := q
      exact fun hr => tail i r hr

theorem decodeNew_any {cfg : Cfg} (hco : CoderOk cfg) {B : Nat} {d : Dec} (hd : Within B d) (b0 : Nat) (s : List Nat) :
    Step B d s (decodeNew cfg d b0 s) := by
  unfold decodeNew
  generalize (b0 &&& 0x30 == 0x20) = inc
  generalize (b0 &&& 0x30 == 0x30) = sub
  simp only
  have hpb : (if inc || sub then 4 else 5) ∈ [0, 4, 5, 14] := by split <;> simp
  generalize (if inc || sub then 4 else 5) = pb at hpb
  have h1 := readInteger_reads b0 hpb s
  by_cases hb : b0 &&& 0x40 ≠ 0
  · rw [if_pos hb]
    revert h1
    cases readInteger b0 pb s with
    | error e => exact id
    | ok q =>
      obtain ⟨ref, s1⟩ := q
      intro h1
      simp only [Reads] at h1
      simp only [bind, Except.bind]
      rcases item_any d.headers ref with ⟨old, hold, e⟩ | e
      · simp only [e]
        have h2 := readInteger_reads b0 (p := 0) (by simp) s1
        revert h2
        cases readInteger b0 0 s1 with
        | error e => exact id
        | ok q =>
          obtain ⟨pl, s2⟩ := q
          intro h2
          simp only [Reads] at h2
          simp only
          have h3 := readString_any hco s2
          revert h3
          cases readString cfg s2 with
          | error e => exact id
          | ok q =>
            obtain ⟨v, s3⟩ := q
            simp only
            intro h3
            have hl : (old.2.take pl ++ v).length ≤ B + v.length := by
              have := (hd.headers old hold).2
              rw [List.length_append, List.length_take]; omega
            have hn := (hd.headers old hold).1
            rcases decodeIndexing_any (hd.mono (B' := B + v.length) (by omega)) sub inc ref (old.1, old.2.take pl ++ v)
              (by simp only; omega) hl with ⟨d', e, k1, k2, k3⟩ | e
            · simp only [e, Step]
              exact ⟨by omega, fun B' hB => ⟨by omega, by omega, k1.mono (by omega)⟩, k2, by rw [k3]; omega⟩
            · simp only [e, Step]
      · simp only [e, Step]
  · rw [if_neg hb]
    have un : (do
        let (d, name, s) ← decodeName cfg d b0 pb s
        let (ref, s) ← if sub then readInteger b0 0 s else .ok (0, s)
        let (value, s) ← readString cfg s
        let d ← decodeIndexing d sub inc ref (name, value)
        .ok (d, (name, value), s) : Py (Dec × Hdr × List Nat)) = (do
        let (d, name, s) ← decodeName cfg d b0 pb s
        valuePart cfg b0 sub inc d name s) := rfl
    rw [un]
    unfold decodeName
    revert h1
    cases readInteger b0 pb s with
    | error e => exact id
    | ok q =>
      obtain ⟨ref, s1⟩ := q
      intro h1
      simp only [Reads] at h1
      simp only [bind, Except.bind]
      by_cases h0 : ref = 0
      · simp only [if_pos h0]
        have h3 := readString_any hco s1
        revert h3
        cases readString cfg s1 with
        | error e => exact id
        | ok q =>
          obtain ⟨name, s2⟩ := q
          simp only
          intro h3
          have hd' : Within (B + name.length) { d with names := d.names ++ [name] } := by
            have hm := hd.mono (B' := B + name.length) (by omega)
            refine ⟨hm.headers, fun n hn => ?_⟩
            rcases List.mem_append.1 hn with hn | hn
            · exact hm.names n hn
            · rw [List.mem_singleton] at hn
              subst hn
              omega
          have := valuePart_any hco hd' b0 sub inc (name := name) (by omega) s2
          revert this
          cases valuePart cfg b0 sub inc { d with names := d.names ++ [name] } name s2 with
          | error e => exact id
          | ok q =>
            obtain ⟨d', h, rest⟩ := q
            simp only [Step]
            intro ⟨k1, k2, k3, k4⟩
            exact ⟨by omega, fun B' hB => k2 B' (by omega), k3, by rw [k4]; simp⟩
      · simp only [if_neg h0]
        rcases item_any d.names (ref - 1) with ⟨name, hname, e⟩ | e
        · simp only [e]
          have := valuePart_any hco hd b0 sub inc (hd.names name hname) s1
          revert this
          cases valuePart cfg b0 sub inc d name s1 with
          | error e => exact id
          | ok q =>
            obtain ⟨d', h, rest⟩ := q
            simp only [Step]
            intro ⟨k1, k2, k3, k4⟩
            exact ⟨by omega, fun B' hB => k2 B' (by omega), k3, by rw [k4]; omega⟩
        · simp only [e, Step]

theorem decodeHeader_any {cfg : Cfg} (hco : CoderOk cfg) {B : Nat} {d : Dec} (hd : Within B d) (s : List Nat) :
    match decodeHeader cfg d s with
    | .ok (d', h, rest) => rest.length < s.length ∧ (∀ B', B + 8 * s.length ≤ B' + 8 * rest.length →
      h.1.length ≤ B' ∧ h.2.length ≤ B' ∧ Within B' d') ∧ d'.headers.length ≤ d.headers.length + 1 ∧ d'.names.length ≤ d.names.length + 1
    | .error e => e = .index ∨ e = .standard ∧ cfg.maxSize < d.size := by
  unfold decodeHeader
  by_cases hs : d.size > cfg.maxSize
  · simp only [if_pos hs]
    simpa using hs
  · rw [if_neg hs]
    cases s with
    | nil => exact Or.inl rfl
    | cons b0 s =>
      simp only [readByte, bind, Except.bind, List.length_cons]
      by_cases hb : b0 &&& 0x80 ≠ 0
      · rw [if_pos hb]
        have := decodeIndexed_any hd b0 s
        revert this
        cases decodeIndexed d b0 s with
        | error e => exact fun h => Or.inl h
        | ok q =>
          obtain ⟨h, r⟩ := q
          simp only
          intro ⟨k1, k2⟩
          have := hd.headers h k2
          exact ⟨by omega, fun B' hB => ⟨by omega, by omega, hd.mono (by omega)⟩, by omega, by omega⟩
      · rw [if_neg hb]
        have := decodeNew_any hco hd b0 s
        revert this
        cases decodeNew cfg d b0 s with
        | error e => exact fun h => Or.inl h
        | ok q =>
          obtain ⟨d', h, r⟩ := q
          simp only [Step]
          intro ⟨k1, k2, k3, k4⟩
          exact ⟨by omega, fun B' hB => k2 B' (by omega), k3, k4⟩

theorem decodeLoop_any {cfg : Cfg} (hco : CoderOk cfg) (n : Nat) : ∀ {B : Nat} {d : Dec} (s : List Nat), Within B d →
    match decodeLoop cfg n d s with
    | .ok (d', hs) => hs.length = n ∧ n ≤ s.length ∧ (∀ h ∈ hs, h.1.length ≤ B + 8 * s.length ∧ h.2.length ≤ B + 8 * s.length) ∧
      Within (B + 8 * s.length) d' ∧ d'.headers.length ≤ d.headers.length + n ∧ d'.names.length ≤ d.names.length + n
    | .error e => e = .index ∨ e = .standard := by
  induction n with
  | zero => intro B d s hd; exact ⟨rfl, Nat.zero_le _, by simp, hd.mono (by omega), by simp, by simp⟩
  | succ n ih =>
    intro B d s hd
    unfold decodeLoop
    have h1 := decodeHeader_any hco hd s
    revert h1
    cases decodeHeader cfg d s with
    | error e => exact fun h => h.imp id (·.1)
    | ok q =>
      obtain ⟨d1, h, r⟩ := q
      simp only [bind, Except.bind]
      intro ⟨k1, k2, k3, k4⟩
      obtain ⟨m1, m2, m3⟩ := k2 (B + 8 * (s.length - r.length)) (by omega)
      have h2 := ih r m3
      revert h2
      cases decodeLoop cfg n d1 r with
      | error e => exact id
      | ok q =>
        obtain ⟨d2, hs⟩ := q
        simp only
        intro ⟨p1, p2, p3, p4, p5, p6⟩
        refine ⟨by simp [p1], by omega, fun x hx => ?_, p4.mono (by omega), by omega, by omega⟩
        rcases List.mem_cons.1 hx with rfl | hx
        · exact ⟨by omega, by omega⟩
        · have := p3 x hx
          exact ⟨by omega, by omega⟩

/-- Any list of bytes in place of a frame. -/
theorem decodeHeaders_any {cfg : Cfg} (hco : CoderOk cfg) {B : Nat} {d : Dec} (hd : Within B d) (f : List Nat) :
    match decodeHeaders cfg d f with
    | .ok (d', hs) => f[8]? = some hs.length ∧ hs.length + 9 ≤ f.length ∧
      (∀ h ∈ hs, h.1.length ≤ B + 8 * (f.length - 9) ∧ h.2.length ≤ B + 8 * (f.length - 9)) ∧
      Within (B + 8 * (f.length - 9)) d' ∧ d'.headers.length ≤ d.headers.length + hs.length ∧ d'.names.length ≤ d.names.length + hs.length
    | .error e => e = .index ∨ e = .standard := by
  unfold decodeHeaders
  cases hf : f.drop 8 with
  | nil => exact Or.inl rfl
  | cons nb s =>
    simp only [readByte, bind, Except.bind]
    have h1 := decodeLoop_any hco nb s hd
    have hlen : f.length = s.length + 9 := by
      have := congrArg List.length hf
      rw [List.length_drop, List.length_cons] at this
      omega
    have h8 : f[8]? = some nb := by
      have := congrArg (·[0]?) hf
      simpa using this
    revert h1
    cases decodeLoop cfg nb d s with
    | error e => exact id
    | ok q =>
      obtain ⟨d', hs⟩ := q
      simp only
      intro ⟨p1, p2, p3, p4, p5, p6⟩
      rw [hlen, Nat.add_sub_cancel]
      exact ⟨by rw [h8, p1], by omega, p3, p4, by omega, by omega⟩

end Verif.HeaderDiff
