import Verif.DeltaBohe.SessionLemmas
/-
delta_bohe: what a receiver would hear.
-/
namespace Verif.DeltaBohe
open Verif Verif.Bits Verif.Bits.Spec Verif.Huff Verif.Bohe Verif.DeltaBohe.Spec

theorem collect_get (ves : List VE) : ∀ (h : Dict Str Str) (x : Str), Dict.get? (collect ves h) x =
    match Dict.get? h x with
    | some v => some (((ves.filter fun e => decide (e.key = x)).map (·.val)).foldl (fun a y => a ++ [0] ++ y) v)
    | none => joined [0] ((ves.filter fun e => decide (e.key = x)).map (·.val)) := by
  induction ves with
  | nil =>
    intro h x
    simp only [collect, List.filter_nil, List.map_nil, List.foldl_nil, joined]
    cases Dict.get? h x <;> rfl
  | cons ve ves ih =>
    intro h x
    unfold collect
    by_cases hx : ve.key = x
    · subst hx
      simp only [decide_true, List.filter_cons_of_pos, List.map_cons]
      cases hg : Dict.get? h ve.key with
      | none =>
        simp only
        rw [ih, Dict.get?_set, if_pos rfl]
        rfl
      | some v =>
        simp only
        rw [ih, Dict.get?_set, if_pos rfl]
        rfl
    · rw [List.filter_cons_of_neg (by simpa using hx)]
      cases hg : Dict.get? h ve.key with
      | none =>
        simp only
        rw [ih, Dict.get?_set, if_neg hx]
      | some v =>
        simp only
        rw [ih, Dict.get?_set, if_neg hx]

/-- The NULs between crumbs become semicolons and spaces. -/
theorem joined_cookie (l : List Str) (hl : ∀ v ∈ l, 0 ∉ v) :
    (joined [0] l).map (fun v => v.flatMap fun x => if x = 0 then [59, 32] else [x]) = joined [59, 32] l := by
  have h1 : ∀ v : Str, 0 ∉ v → (v.flatMap fun x => if x = 0 then [59, 32] else [x]) = v := by
    intro v hv
    induction v with
    | nil => rfl
    | cons x v ih =>
      rw [List.mem_cons, not_or] at hv
      rw [List.flatMap_cons, if_neg (Ne.symm hv.1), ih hv.2]
      rfl
  cases l with
  | nil => rfl
  | cons v vs =>
    simp only [joined, Option.map_some, Option.some.injEq]
    have : ∀ (vs : List Str) (a b : Str), (∀ v ∈ vs, 0 ∉ v) → (a.flatMap fun x => if x = 0 then [59, 32] else [x]) = b →
        ((vs.foldl (fun a x => a ++ [0] ++ x) a).flatMap fun x => if x = 0 then [59, 32] else [x]) =
          vs.foldl (fun a x => a ++ [59, 32] ++ x) b := by
      intro vs
      induction vs with
      | nil => exact fun a b _ h => h
      | cons y vs ih =>
        intro a b hv hab
        refine ih _ _ (fun v hm => hv v (by simp [hm])) ?_
        rw [List.flatMap_append, List.flatMap_append, hab, h1 y (hv y (by simp))]
        rfl
    exact this vs v v (fun x hx => hl x (by simp [hx])) (h1 v (hl v (by simp)))

/-- The headers that are heard, when the header group holds `es`. -/
theorem generate_get {d : Codec} (hc : Core d) {es : List Hdr} (hn : es.Nodup)
    (hg : ∀ kv, (∃ e ∈ d.entries, e.gen.isSome ∧ e.kv = kv) ↔ kv ∈ es) (k : Str) : ∃ l : List Str,
    l.Perm ((es.filter fun kv => decide (kv.1 = k)).map (·.2)) ∧
    Dict.get? (generate d).2 k = if k = b!"cookie" then (joined [0] l).map (fun v => v.flatMap fun x => if x = 0 then [59, 32] else [x])
      else joined [0] l := by
  set S := sortBy (fun a b => decide (a.idx ≤ b.idx)) (d.entries.filter fun ve => ve.gen.isSome) with hS
  have hSp : S.Perm (d.entries.filter fun ve => ve.gen.isSome) := sortBy_perm _ _
  have hkv : (S.map VE.kv).Perm es := by
    refine (hSp.map _).trans ?_
    rw [List.perm_ext_iff_of_nodup (hc.kv.sublist (List.filter_sublist.map _)) hn]
    intro kv
    rw [← hg]
    constructor
    · intro hm
      obtain ⟨e, he, rfl⟩ := List.mem_map.1 hm
      exact ⟨e, List.mem_of_mem_filter he, (List.mem_filter.1 he).2, rfl⟩
    · rintro ⟨e, he, h1, rfl⟩
      exact List.mem_map.2 ⟨e, List.mem_filter.2 ⟨he, h1⟩, rfl⟩
  refine ⟨(S.filter fun e => decide (e.key = k)).map (·.val), ?_, ?_⟩
  · have h1 := (hkv.filter fun kv => decide (kv.1 = k)).map (·.2)
    rw [List.filter_map, List.map_map] at h1
    exact h1
  · have h0 := collect_get S [] k
    simp only [Dict.get?_nil] at h0
    have hgen : (generate d).2 = match Dict.get? (collect S []) b!"cookie" with
      | some v => Dict.set (collect S []) b!"cookie" (v.flatMap fun x => if x = 0 then [59, 32] else [x])
      | none => collect S [] := rfl
    rw [hgen]
    by_cases hk : k = b!"cookie"
    · rw [if_pos hk]
      subst hk
      rw [← h0]
      cases hq : Dict.get? (collect S []) b!"cookie" with
      | none => simp [hq]
      | some v => simp [Dict.get?_set]
    · rw [if_neg hk, ← h0]
      cases hq : Dict.get? (collect S []) b!"cookie" with
      | none => rfl
      | some v =>
        simp only
        rw [Dict.get?_set, if_neg (fun e => hk e.symm)]

/-- The header group does not change when its entries are renumbered. -/
theorem adjust_group {d : Codec} (hc : Core d) (hp : none ∉ d.lru) (kv : Hdr) :
    (∃ e ∈ (adjust d).entries, e.gen.isSome ∧ e.kv = kv) ↔ ∃ e ∈ d.entries, e.gen.isSome ∧ e.kv = kv := by
  obtain ⟨-, -, ⟨f, h1, -⟩, -⟩ := adjust_full hc hp
  constructor
  · rintro ⟨e, he, h2, h3⟩
    obtain ⟨x, hx, rfl⟩ := List.mem_map.1 (h1.mem_iff.1 he)
    exact ⟨x, hx, h2, h3⟩
  · rintro ⟨e, he, h2, h3⟩
    exact ⟨_, h1.mem_iff.2 (List.mem_map.2 ⟨e, he, rfl⟩), h2, h3⟩

theorem Sim.inGroup {off : Str → Nat} {c d : Codec} (h : Sim off c d) (kv : Hdr) :
    (∃ e ∈ d.entries, e.gen.isSome ∧ e.kv = kv) ↔ ∃ e ∈ c.entries, e.gen.isSome ∧ e.kv = kv := by
  have key : ∀ l : List VE, (∃ e ∈ l, e.gen.isSome ∧ e.kv = kv) ↔ ∃ s ∈ l.map VE.shape, s.2.2.2 = true ∧ (s.2.1, s.2.2.1) = kv := by
    intro l
    constructor
    · rintro ⟨e, he, h1, h2⟩
      exact ⟨_, List.mem_map.2 ⟨e, he, rfl⟩, h1, h2⟩
    · rintro ⟨s, hs, h1, h2⟩
      obtain ⟨e, he, rfl⟩ := List.mem_map.1 hs
      exact ⟨e, he, h1, h2⟩
  rw [key, key, h.entries]

/-! ### Sessions -/

theorem sendAll_of_compress {L : Libs} {h : Huffman} (ms : List Message) : ∀ {c c' : Codec} {bs : List Str},
    compressAll L h ms c = .ok (c', bs) → ∃ gs, sendAll L ms c = .ok (c', gs) ∧ List.Forall₂ (fun g b => opsToRealOps h g = .ok b) gs bs := by
  induction ms with
  | nil => intro c c' bs e; cases e; exact ⟨[], rfl, .nil⟩
  | cons m ms ih =>
    intro c c' bs e
    obtain ⟨c1, bs1, bs2, e1, e2, rfl⟩ := (compressAll_append [m] ms).1 e
    obtain ⟨b, e3, rfl⟩ := compressAll_one e1
    obtain ⟨g, f1, f2⟩ := compress_ok e3
    obtain ⟨gs, f3, f4⟩ := ih e2
    exact ⟨g :: gs, by simp only [sendAll, bind, Except.bind, f1, f3, pure, Except.pure], .cons f2 f4⟩

theorem sendAll_append {L : Libs} (ms ns : List Message) : ∀ {c c' : Codec} {gs : List Instrs},
    sendAll L (ms ++ ns) c = .ok (c', gs) →
      ∃ c1 gs1 gs2, sendAll L ms c = .ok (c1, gs1) ∧ sendAll L ns c1 = .ok (c', gs2) ∧ gs = gs1 ++ gs2 := by
  induction ms with
  | nil => exact fun e => ⟨_, [], _, rfl, e, rfl⟩
  | cons m ms ih =>
    intro c c' gs e
    simp only [List.cons_append, sendAll, bind, Except.bind] at e
    cases e1 : makeOperations L m.ord c m.headers with
    | error x => rw [e1] at e; cases e
    | ok r =>
      obtain ⟨c1, g⟩ := r
      rw [e1] at e
      simp only at e
      cases e2 : sendAll L (ms ++ ns) c1 with
      | error x => rw [e2] at e; cases e
      | ok r =>
        obtain ⟨c2, gs'⟩ := r
        rw [e2] at e
        cases e
        obtain ⟨c3, gs1, gs2, f1, f2, rfl⟩ := ih e2
        exact ⟨c3, g :: gs1, gs2, by simp only [sendAll, bind, Except.bind, e1, f1, pure, Except.pure], f2, rfl⟩

/-- The receiver stays in step. -/
theorem sim_session {L : Libs} (ms : List Message) : ∀ {c d c' : Codec} {gs : List Instrs} (_ : Sim (fun _ => 0) c d) (_ : Core c)
    (_ : sendAll L ms c = .ok (c', gs)), Core c' ∧ ∃ d' hs, receiveAll gs d = .ok (d', hs) ∧ Sim (fun _ => 0) c' d' := by
  induction ms with
  | nil => intro c d c' gs h hc e; cases e; exact ⟨hc, d, [], rfl, h⟩
  | cons m ms ih =>
    intro c d c' gs h hc e
    simp only [sendAll, bind, Except.bind] at e
    cases e1 : makeOperations L m.ord c m.headers with
    | error x => rw [e1] at e; cases e
    | ok r =>
      obtain ⟨c1, g⟩ := r
      rw [e1] at e
      simp only at e
      cases e2 : sendAll L ms c1 with
      | error x => rw [e2] at e; cases e
      | ok r =>
        obtain ⟨c2, gs'⟩ := r
        rw [e2] at e
        cases e
        obtain ⟨hc1, -, d1, f1, s1, -⟩ := sim_message h hc e1
        obtain ⟨hc2, d2, hs, f2, s2⟩ := ih s1 hc1 e2
        exact ⟨hc2, d2, (generate d1).2 :: hs, by simp only [receiveAll, bind, Except.bind, f1, f2, pure, Except.pure], s2⟩

theorem receiveAll_append (gs hs : List Instrs) : ∀ {d d1 d2 : Codec} {r1 r2 : List (Dict Str Str)},
    receiveAll gs d = .ok (d1, r1) → receiveAll hs d1 = .ok (d2, r2) → receiveAll (gs ++ hs) d = .ok (d2, r1 ++ r2) := by
  induction gs with
  | nil => intro d d1 d2 r1 r2 e1 e2; cases e1; exact e2
  | cons g gs ih =>
    intro d d1 d2 r1 r2 e1 e2
    simp only [receiveAll, bind, Except.bind] at e1
    cases f1 : execOps d g with
    | error x => rw [f1] at e1; cases e1
    | ok d' =>
      rw [f1] at e1
      simp only at e1
      cases f2 : receiveAll gs (generate d').1 with
      | error x => rw [f2] at e1; cases e1
      | ok r =>
        obtain ⟨d'', r'⟩ := r
        rw [f2] at e1
        cases e1
        simp only [List.cons_append, receiveAll, bind, Except.bind, f1, ih f2 e2, pure, Except.pure]

theorem Sim.refl (c : Codec) : Sim (fun _ => 0) c c :=
  ⟨rfl, rfl, fun _ => rfl, rfl, rfl, rfl, rfl, le_rfl, fun x kc kd h1 h2 => by rw [h1] at h2; cases h2; simp, fun x hx => by omega, rfl⟩

end Verif.DeltaBohe
