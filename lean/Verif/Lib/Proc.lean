import Verif.Lib.Run
/-
Lemmas about process_message and process_session.
-/
namespace Verif.Lib
open Verif Verif.Lib.Spec

/-- What one codec does with a message: its new state, the size, and the headers it gave back
(`none` if it has no decompressor). -/
structure Outcome (σ : Type) where
  state : σ
  size : Nat
  back : Option (Dict Str Str)

/-- `o` is what codec `c` in state `s` does with `hdrs`. -/
def Does {σ : Type} (hdrs : Dict Str Str) (host : Str) (cs : Codec σ × σ) (o : Outcome σ) : Prop :=
  ∃ s1 w, cs.1.compress cs.2 (filterHeaders hdrs) host = .ok (s1, w) ∧ o.size = w.length ∧
    ((cs.1.decompress s1 w = .error .notImpl ∧ o.back = none ∧ o.state = s1) ∨
     ∃ d, cs.1.decompress s1 w = .ok (o.state, d) ∧ o.back = some d)

theorem processCodecs_ok {σ : Type} (ord : List Hdr → List Hdr)
    (hdrs : Dict Str Str) (host : Str) (cs : List (Codec σ × σ)) : ∀ (r m : MsgResult σ),
    processCodecs ord hdrs host cs r = .ok m → r.sizes.WF →
    ∃ os : List (Outcome σ), List.Forall₂ (Does hdrs host) cs os ∧
      m.states = r.states ++ (cs.zip os).map (fun p => (p.1.1, p.2.state)) ∧
      m.sizes = (cs.zip os).foldl (fun d p => Dict.set d p.1.1.name p.2.size) r.sizes ∧
      m.mismatches = r.mismatches ++ ((cs.zip os).filter fun p =>
        match p.2.back with
        | none => false
        | some d => compareHeaders ord (filterHeaders hdrs) b!"orig" d p.1.1.name != []).map (·.1.1.name) := by
  induction cs with
  | nil =>
    intro r m h _
    cases h
    exact ⟨[], .nil, by simp, rfl, by simp⟩
  | cons c cs ih =>
    obtain ⟨c, s⟩ := c
    intro r m h hwf
    rw [processCodecs] at h
    dsimp only at h
    cases h1 : c.compress s (filterHeaders hdrs) host with
    | error e => rw [h1] at h; cases h
    | ok q =>
      obtain ⟨s1, w⟩ := q
      rw [h1] at h
      dsimp only at h
      cases h2 : c.decompress s1 w with
      | error e =>
        rw [h2] at h
        cases e
        case notImpl =>
          dsimp only at h
          obtain ⟨os, i1, i2, i3, i4⟩ := ih _ _ h (hwf.set _ _)
          refine ⟨⟨s1, w.length, none⟩ :: os, .cons ⟨s1, w, h1, rfl, Or.inl ⟨h2, rfl, rfl⟩⟩ i1, ?_, ?_, ?_⟩
          · rw [i2]; simp
          · rw [i3]; rfl
          · rw [i4]; simp
        all_goals cases h
      | ok q =>
        obtain ⟨s2, d⟩ := q
        rw [h2] at h
        dsimp only at h
        obtain ⟨os, i1, i2, i3, i4⟩ := ih _ _ h (hwf.set _ _)
        refine ⟨⟨s2, w.length, some d⟩ :: os, .cons ⟨s1, w, h1, rfl, Or.inr ⟨d, h2, rfl⟩⟩ i1, ?_, ?_, ?_⟩
        · rw [i2]; simp
        · rw [i3]; rfl
        · rw [i4, List.zip_cons_cons, List.filter_cons]
          simp only [List.append_assoc]
          by_cases hc : compareHeaders ord (filterHeaders hdrs) b!"orig" d c.name = []
          · simp [hc]
          · simp [hc]

/-- The sizes recorded for a message: keys are the codec names. -/
theorem sizes_keys {σ : Type} (l : List ((Codec σ × σ) × Outcome σ)) : ∀ (d : Dict Str Nat), d.WF →
    (l.foldl (fun d p => Dict.set d p.1.1.name p.2.size) d).WF ∧
    ∀ n, n ∈ (l.foldl (fun d p => Dict.set d p.1.1.name p.2.size) d).keys ↔
      n ∈ d.keys ∨ n ∈ l.map (·.1.1.name) := by
  induction l with
  | nil => intro d h; exact ⟨h, by simp⟩
  | cons p l ih =>
    intro d h
    obtain ⟨h1, h2⟩ := ih _ (h.set p.1.1.name p.2.size)
    refine ⟨h1, fun n => ?_⟩
    rw [List.foldl_cons, h2, Dict.keys_set]
    simp only [List.map_cons, List.mem_cons]
    split
    · rename_i hk
      constructor
      · rintro (h | h)
        · exact Or.inl h
        · exact Or.inr (Or.inr h)
      · rintro (h | rfl | h)
        · exact Or.inl h
        · exact Or.inl hk
        · exact Or.inr h
    · simp only [List.mem_append, List.mem_singleton]; tauto

theorem push_get_other {β : Type} {d : Dict Str (List β)} {k n : Str} (h : k ≠ n) (x : β) :
    (push d k x).get? n = d.get? n := by rw [get?_push, if_neg h]

/-- Recording the results of one message appends one size per name. -/
theorem recordAll_ok (baseline : Str) (results : Dict Str Nat) (l : List (Str × Nat)) :
    ∀ (r r' : Results), (l.map (·.1)).Nodup → recordAll baseline results l r = .ok r' →
    ∀ n, r'.sizes.get? n = (match Dict.get? l n with
        | some size => some ((r.sizes.get? n).getD [] ++ [size])
        | none => r.sizes.get? n) ∧
      r'.ratios.get? n = (match Dict.get? l n with
        | some size => some ((r.ratios.get? n).getD [] ++
            [if n = baseline then (1, 1) else (size, (results.get? baseline).getD 0)])
        | none => r.ratios.get? n) ∧
      (∀ n ∈ l.map (·.1), n ≠ baseline → (results.get? baseline).getD 0 ≠ 0) := by
  induction l with
  | nil => intro r r' _ h n; cases h; exact ⟨rfl, rfl, by simp⟩
  | cons p l ih =>
    obtain ⟨name, size⟩ := p
    intro r r' hnd h n
    obtain ⟨hnd1, hnd2⟩ := List.nodup_cons.1 hnd
    rw [recordAll] at h
    cases hr : ratioOf baseline results name size with
    | error e => rw [hr] at h; cases h
    | ok ratio =>
      rw [hr] at h
      dsimp only at h
      have hratio : ratio = (if name = baseline then (1, 1) else (size, (results.get? baseline).getD 0)) ∧
          (name ≠ baseline → (results.get? baseline).getD 0 ≠ 0) := by
        unfold ratioOf at hr
        by_cases hb : name = baseline
        · rw [if_pos hb] at hr; cases hr; simp [hb]
        · rw [if_neg hb] at hr
          cases hg : results.get? baseline with
          | none => rw [hg] at hr; cases hr
          | some b =>
            rw [hg] at hr
            cases b with
            | zero => cases hr
            | succ b => cases hr; simp [hb]
      obtain ⟨i1, i2, i3⟩ := ih _ _ hnd2 h n
      rw [Dict.get?_cons]
      by_cases hk : name = n
      · subst hk
        have hno : Dict.get? l name = none := Dict.get?_none.2 hnd1
        rw [hno] at i1 i2
        rw [i1, i2]
        simp only [if_true]
        refine ⟨by rw [get?_push, if_pos rfl], by rw [get?_push, if_pos rfl, hratio.1], ?_⟩
        intro m hm hne
        rcases List.mem_cons.1 hm with rfl | hm
        · exact hratio.2 hne
        · exact i3 m hm hne
      · rw [if_neg hk]
        rw [push_get_other hk] at i1 i2
        refine ⟨i1, i2, ?_⟩
        intro m hm hne
        rcases List.mem_cons.1 hm with rfl | hm
        · exact hratio.2 hne
        · exact i3 m hm hne

/-- Recording fails with KeyError exactly for lack of the baseline. -/
theorem recordAll_key (baseline : Str) (results : Dict Str Nat) (h0 : results.get? baseline ≠ some 0)
    (l : List (Str × Nat)) : ∀ (r : Results),
    (results.get? baseline = none ∧ (∃ p ∈ l, p.1 ≠ baseline) → recordAll baseline results l r = .error .key) ∧
    (results.get? baseline ≠ none ∨ (∀ p ∈ l, p.1 = baseline) →
      ∃ r', recordAll baseline results l r = .ok r') := by
  induction l with
  | nil => intro r; exact ⟨by simp, fun _ => ⟨r, rfl⟩⟩
  | cons p l ih =>
    obtain ⟨name, size⟩ := p
    intro r
    rw [recordAll]
    by_cases hb : name = baseline
    · have : ratioOf baseline results name size = .ok (1, 1) := by rw [ratioOf, if_pos hb]
      rw [this]
      obtain ⟨i1, i2⟩ := ih { sizes := push r.sizes name size, ratios := push r.ratios name (1, 1) }
      refine ⟨?_, ?_⟩
      · rintro ⟨h1, p, hp, hne⟩
        refine i1 ⟨h1, p, ?_, hne⟩
        rcases List.mem_cons.1 hp with rfl | hp
        · exact absurd hb hne
        · exact hp
      · rintro (h | h)
        · exact i2 (Or.inl h)
        · exact i2 (Or.inr (fun p hp => h p (by simp [hp])))
    · cases hg : results.get? baseline with
      | none =>
        have : ratioOf baseline results name size = .error .key := by rw [ratioOf, if_neg hb, hg]
        rw [this]
        refine ⟨fun _ => rfl, ?_⟩
        rintro (h | h)
        · exact absurd rfl h
        · exact absurd (h (name, size) (by simp)) hb
      | some b =>
        cases b with
        | zero => exact absurd hg h0
        | succ b =>
          have : ratioOf baseline results name size = .ok (size, b + 1) := by simp [ratioOf, hb, hg]
          rw [this]
          obtain ⟨i1, i2⟩ := ih { sizes := push r.sizes name size, ratios := push r.ratios name (size, b + 1) }
          refine ⟨by simp, fun _ => i2 (Or.inl (by simp [hg]))⟩

/-- A codec that never raises (except for having no decompressor) and never produces nothing. -/
def Codec.Total {σ : Type} (c : Codec σ) : Prop :=
  ∀ s h host, ∃ s1 w, c.compress s h host = .ok (s1, w) ∧ w ≠ [] ∧
    (c.decompress s1 w = .error .notImpl ∨ ∃ q, c.decompress s1 w = .ok q)

theorem processCodecs_total {σ : Type} (ord : List Hdr → List Hdr) (hdrs : Dict Str Str) (host : Str)
    (cs : List (Codec σ × σ)) (ht : ∀ c ∈ cs, c.1.Total) : ∀ r : MsgResult σ,
    ∃ m, processCodecs ord hdrs host cs r = .ok m := by
  induction cs with
  | nil => intro r; exact ⟨r, rfl⟩
  | cons c cs ih =>
    obtain ⟨c, s⟩ := c
    intro r
    obtain ⟨s1, w, h1, _, h2⟩ := ht (c, s) (by simp) s (filterHeaders hdrs) host
    have ih' := ih (fun c hc => ht c (by simp [hc]))
    rw [processCodecs]
    dsimp only at h1 h2 ⊢
    rw [h1]
    dsimp only
    rcases h2 with h2 | ⟨q, h2⟩
    · rw [h2]; exact ih' _
    · obtain ⟨s2, d⟩ := q
      rw [h2]; exact ih' _

theorem forall2_zip_fst {α β γ : Type} {R : α → β → Prop} {l : List α} {m : List β} (h : List.Forall₂ R l m)
    (f : α → γ) : (l.zip m).map (fun p => f p.1) = l.map f := by
  induction h with
  | nil => rfl
  | cons _ _ ih => simp [ih]

/-- Facts about one processed message. -/
theorem processMessage_ok {σ : Type} {ord : List Hdr → List Hdr} {cs : List (Codec σ × σ)}
    {hdrs : Dict Str Str} {host : Str} {m : MsgResult σ} (h : processMessage ord cs hdrs host = .ok m) :
    m.sizes.WF ∧ (∀ n, n ∈ m.sizes.keys ↔ n ∈ cs.map (·.1.name)) ∧ m.states.map (·.1) = cs.map (·.1) := by
  obtain ⟨os, h1, h2, h3, _⟩ := processCodecs_ok ord hdrs host cs _ _ h Dict.wf_nil
  obtain ⟨k1, k2⟩ := sizes_keys (cs.zip os) [] Dict.wf_nil
  rw [← h3] at k1 k2
  refine ⟨k1, fun n => ?_, ?_⟩
  · rw [k2, forall2_zip_fst h1 (fun c => c.1.name)]; simp [Dict.keys]
  · rw [h2]
    simp only [List.nil_append, List.map_map]
    exact forall2_zip_fst h1 (fun c => c.1)

theorem processLoop_ok {σ : Type} (ord : List Hdr → List Hdr) (baseline : Str)
    (ms : List (Dict Str Str × Str)) : ∀ (cs : List (Codec σ × σ)) (r r' : Results) (mms : List (List Str)),
    processLoop ord baseline ms cs r = .ok (r', mms) →
    (∀ n ∈ cs.map (·.1.name),
      ((r'.sizes.get? n).getD []).length = ((r.sizes.get? n).getD []).length + ms.length ∧
      ((r'.ratios.get? n).getD []).length = ((r.ratios.get? n).getD []).length + ms.length) ∧
    (∀ n, n ∉ cs.map (·.1.name) → r'.sizes.get? n = r.sizes.get? n ∧ r'.ratios.get? n = r.ratios.get? n) ∧
    mms.length = ms.length := by
  induction ms with
  | nil =>
    intro cs r r' mms h
    cases h
    exact ⟨fun n _ => ⟨rfl, rfl⟩, fun n _ => ⟨rfl, rfl⟩, rfl⟩
  | cons p ms ih =>
    obtain ⟨hdrs, host⟩ := p
    intro cs r r' mms h
    rw [processLoop] at h
    cases hm : processMessage ord cs hdrs host with
    | error e => rw [hm] at h; cases h
    | ok m =>
      rw [hm] at h
      dsimp only at h
      cases hr : recordAll baseline m.sizes m.sizes r with
      | error e => rw [hr] at h; cases h
      | ok r1 =>
        rw [hr] at h
        dsimp only at h
        cases hl : processLoop ord baseline ms m.states r1 with
        | error e => rw [hl] at h; cases h
        | ok q =>
          obtain ⟨r2, mm2⟩ := q
          rw [hl] at h
          cases h
          obtain ⟨k1, k2, k3⟩ := processMessage_ok hm
          have k3' : m.states.map (·.1.name) = cs.map (·.1.name) := by
            have := congrArg (List.map Codec.name) k3
            simpa [Function.comp_def] using this
          obtain ⟨i1, i2, i3⟩ := ih _ _ _ _ hl
          rw [k3'] at i1 i2
          have hrec := recordAll_ok baseline m.sizes m.sizes r r1 k1 hr
          refine ⟨fun n hn => ?_, fun n hn => ?_, by simp [i3]⟩
          · obtain ⟨a1, a2⟩ := i1 n hn
            obtain ⟨b1, b2, _⟩ := hrec n
            cases hg : Dict.get? m.sizes n with
            | none => exact absurd ((k2 n).2 hn) (Dict.get?_none.1 hg)
            | some size =>
              rw [hg] at b1 b2
              rw [a1, a2, b1, b2]
              simp; omega
          · obtain ⟨a1, a2⟩ := i2 n hn
            obtain ⟨b1, b2, _⟩ := hrec n
            have hg : Dict.get? m.sizes n = none := Dict.get?_none.2 (fun hc => hn ((k2 n).1 hc))
            rw [hg] at b1 b2
            exact ⟨a1.trans b1, a2.trans b2⟩

theorem sizes_nonzero {σ : Type} (l : List ((Codec σ × σ) × Outcome σ)) (h : ∀ p ∈ l, p.2.size ≠ 0) :
    ∀ (d : Dict Str Nat), (∀ n, d.get? n ≠ some 0) →
    ∀ n, (l.foldl (fun d p => Dict.set d p.1.1.name p.2.size) d).get? n ≠ some 0 := by
  induction l with
  | nil => intro d hd; exact hd
  | cons p l ih =>
    intro d hd
    refine ih (fun q hq => h q (by simp [hq])) _ (fun n => ?_)
    rw [Dict.get?_set]
    split
    · simpa using h p (by simp)
    · exact hd n

theorem processMessage_total {σ : Type} (ord : List Hdr → List Hdr) {cs : List (Codec σ × σ)}
    (ht : ∀ c ∈ cs, c.1.Total) (hdrs : Dict Str Str) (host : Str) :
    ∃ m, processMessage ord cs hdrs host = .ok m ∧ ∀ n, m.sizes.get? n ≠ some 0 := by
  obtain ⟨m, hm⟩ := processCodecs_total ord hdrs host cs ht { states := [], sizes := [], mismatches := [] }
  refine ⟨m, hm, ?_⟩
  obtain ⟨os, h1, _, h3, _⟩ := processCodecs_ok ord hdrs host cs _ _ hm Dict.wf_nil
  rw [h3]
  refine sizes_nonzero _ ?_ _ (by simp)
  intro p hp
  have : ∀ (cs : List (Codec σ × σ)) (os : List (Outcome σ)), (∀ c ∈ cs, c.1.Total) →
      List.Forall₂ (Does hdrs host) cs os → ∀ p ∈ cs.zip os, p.2.size ≠ 0 := by
    intro cs os ht h
    induction h with
    | nil => simp
    | cons hab _ ih =>
      rename_i a b l1 l2 hrest
      intro p hp
      rw [List.zip_cons_cons] at hp
      rcases List.mem_cons.1 hp with rfl | hp
      · obtain ⟨s1, w, e1, e2, _⟩ := hab
        obtain ⟨s1', w', e1', e3, _⟩ := ht a (by simp) a.2 (filterHeaders hdrs) host
        rw [e1] at e1'
        cases e1'
        rw [e2]
        simpa using e3
      · exact ih (fun c hc => ht c (by simp [hc])) p hp
  exact this cs os ht h1 p hp

theorem processLoop_key {σ : Type} (ord : List Hdr → List Hdr) (baseline : Str)
    (ms : List (Dict Str Str × Str)) : ∀ (cs : List (Codec σ × σ)) (r : Results), (∀ c ∈ cs, c.1.Total) →
    (ms ≠ [] ∧ cs ≠ [] ∧ baseline ∉ cs.map (·.1.name) → processLoop ord baseline ms cs r = .error .key) ∧
    (ms = [] ∨ cs = [] ∨ baseline ∈ cs.map (·.1.name) → ∃ q, processLoop ord baseline ms cs r = .ok q) := by
  induction ms with
  | nil => intro cs r _; exact ⟨by simp, fun _ => ⟨_, rfl⟩⟩
  | cons p ms ih =>
    obtain ⟨hdrs, host⟩ := p
    intro cs r ht
    obtain ⟨m, hm, h0⟩ := processMessage_total ord ht hdrs host
    obtain ⟨k1, k2, k3⟩ := processMessage_ok hm
    obtain ⟨q1, q2⟩ := recordAll_key baseline m.sizes (h0 baseline) m.sizes r
    have htm : ∀ c ∈ m.states, c.1.Total := by
      intro c hc
      have : c.1 ∈ cs.map (·.1) := by rw [← k3]; exact List.mem_map.2 ⟨c, hc, rfl⟩
      obtain ⟨c', hc', he⟩ := List.mem_map.1 this
      rw [← he]; exact ht c' hc'
    have k3' : m.states.map (·.1.name) = cs.map (·.1.name) := by
      have := congrArg (List.map Codec.name) k3
      simpa [Function.comp_def] using this
    rw [processLoop, hm]
    dsimp only
    refine ⟨?_, ?_⟩
    · rintro ⟨_, hcs, hb⟩
      rw [q1 ⟨Dict.get?_none.2 (fun hc => hb ((k2 _).1 hc)), ?_⟩]
      obtain ⟨c, hc⟩ := List.exists_mem_of_ne_nil _ hcs
      have hcn : c.1.name ∈ m.sizes.keys := (k2 _).2 (List.mem_map.2 ⟨c, hc, rfl⟩)
      obtain ⟨p, hp, he⟩ := List.mem_map.1 hcn
      refine ⟨p, hp, fun e => hb ?_⟩
      rw [← e, he]; exact List.mem_map.2 ⟨c, hc, rfl⟩
    · intro h
      have hb : m.sizes.get? baseline ≠ none ∨ ∀ p ∈ m.sizes, p.1 = baseline := by
        rcases h with h | h | h
        · cases h
        · right
          intro p hp
          have : p.1 ∈ cs.map (·.1.name) := (k2 _).1 (List.mem_map.2 ⟨p, hp, rfl⟩)
          rw [h] at this; cases this
        · left
          intro hc
          exact (Dict.get?_none.1 hc) ((k2 _).2 h)
      obtain ⟨r', hr'⟩ := q2 hb
      rw [hr']
      dsimp only
      obtain ⟨q, hq⟩ := (ih m.states r' htm).2 (by
        rcases h with h | h | h
        · cases h
        · right; left
          have := congrArg List.length k3
          rw [h] at this
          exact List.eq_nil_of_length_eq_zero (by simpa using this)
        · right; right; rw [k3']; exact h)
      rw [hq]
      exact ⟨_, rfl⟩

/-! ### names of codecs -/

theorem codecName_plain {name : Str} (h : 46 ∉ name) : codecName name [] = .ok name := by
  unfold codecName
  have : b!"compressor." ++ name = b!"compressor" ++ 46 :: name := by simp
  rw [this, splitOn_append (by decide), splitOn_noSep h]
  simp

theorem parseCodec_plain (ws : Nat → Bool) {name : Str} (h : 61 ∉ name) :
    parseCodec ws name = .ok (name, []) := by
  unfold parseCodec
  rw [splitOnce_none.2 h]

end Verif.Lib
