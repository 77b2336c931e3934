import Verif.Delta2Bohe.SessionLemmas
import Verif.Delta2Bohe.Spec
import Verif.DeltaBohe.MakeLemmas
/-
delta2_bohe: what a message says, what it is made of, and what is heard.
-/
namespace Verif.Delta2Bohe
open Verif Verif.Huff Verif.Delta2Bohe.Spec
open Verif.DeltaBohe.Spec (parts joined)

theorem parts_perm (k v : Str) : (if k = b!"cookie" then DeltaBohe.crumbs v else [v]).Perm (parts k v) :=
  DeltaBohe.parts_perm k v

theorem encAll_map {enc : Str → Str → Py Str} {k : Str} : ∀ {vs : List Str} {ps : List Hdr}, encAll enc k vs = .ok ps →
    (ps.map fun p => (p.1, (Except.ok p.2 : Py Str))) = vs.map fun x => (k, enc k x) := by
  intro vs
  induction vs with
  | nil => intro ps h; cases h; rfl
  | cons v vs ih =>
    intro ps h
    simp only [encAll, bind, Except.bind] at h
    cases h1 : enc k v with
    | error x => simp [h1] at h
    | ok e =>
      cases h2 : encAll enc k vs with
      | error x => simp [h1, h2] at h
      | ok es =>
        simp only [h1, h2, pure, Except.pure, Except.ok.injEq] at h
        subst h
        simp only [List.map_cons, ih h2, h1]

theorem encAll_total {enc : Str → Str → Py Str} {k : Str} : ∀ {vs : List Str}, (∀ v ∈ vs, ∃ e, enc k v = .ok e) → ∃ ps, encAll enc k vs = .ok ps := by
  intro vs
  induction vs with
  | nil => exact fun _ => ⟨[], rfl⟩
  | cons v vs ih =>
    intro h
    obtain ⟨e, h1⟩ := h v (by simp)
    obtain ⟨ps, h2⟩ := ih fun x hx => h x (by simp [hx])
    exact ⟨(k, e) :: ps, by simp only [encAll, h1, h2, bind, Except.bind, pure, Except.pure]⟩

/-- The pieces are what the message says. -/
theorem pieces_said {enc : Str → Str → Py Str} : ∀ {hs ps : List Hdr}, pieces enc hs = .ok ps →
    (ps.map fun p => (p.1, (Except.ok p.2 : Py Str))).Perm (said enc hs) := by
  intro hs
  induction hs with
  | nil => intro ps h; cases h; exact .refl _
  | cons p hs ih =>
    obtain ⟨k, v⟩ := p
    intro ps h
    simp only [pieces, bind, Except.bind] at h
    cases h1 : encAll enc k (if k = b!"cookie" then DeltaBohe.crumbs v else [v]) with
    | error x => simp [h1] at h
    | ok a =>
      cases h2 : pieces enc hs with
      | error x => simp [h1, h2] at h
      | ok b =>
        simp only [h1, h2, pure, Except.pure, Except.ok.injEq] at h
        subst h
        rw [List.map_append, encAll_map h1]
        exact ((parts_perm k v).map _).append (ih h2)

theorem pieces_total {enc : Str → Str → Py Str} : ∀ {hs : List Hdr}, (∀ x ∈ said enc hs, ∃ e, x.2 = .ok e) → ∃ ps, pieces enc hs = .ok ps := by
  intro hs
  induction hs with
  | nil => exact fun _ => ⟨[], rfl⟩
  | cons p hs ih =>
    obtain ⟨k, v⟩ := p
    intro h
    have hs1 : ∀ x ∈ parts k v, ∃ e, enc k x = .ok e := by
      intro x hx
      exact h (k, enc k x) (List.mem_flatMap.2 ⟨(k, v), by simp, List.mem_map.2 ⟨x, hx, rfl⟩⟩)
    obtain ⟨a, h1⟩ := encAll_total (enc := enc) (k := k) (vs := if k = b!"cookie" then DeltaBohe.crumbs v else [v]) fun x hx =>
      hs1 x ((parts_perm k v).mem_iff.1 hx)
    obtain ⟨b, h2⟩ := ih fun x hx => h x (by
      simp only [said, List.flatMap_cons, List.mem_append]
      exact .inr hx)
    exact ⟨a ++ b, by simp only [pieces, h1, h2, bind, Except.bind, pure, Except.pure]⟩

theorem pieces_mem {enc : Str → Str → Py Str} {hs ps : List Hdr} (h : pieces enc hs = .ok ps) (k e : Str) :
    (k, e) ∈ ps ↔ ∃ v, (k, v) ∈ hs ∧ ∃ x ∈ parts k v, enc k x = .ok e := by
  have h1 : (k, e) ∈ ps ↔ (k, (Except.ok e : Py Str)) ∈ said enc hs := by
    rw [← (pieces_said h).mem_iff, List.mem_map]
    constructor
    · exact fun hm => ⟨_, hm, rfl⟩
    · rintro ⟨p, hp, he⟩
      obtain ⟨p1, p2⟩ := p
      simp only [Prod.mk.injEq, Except.ok.injEq] at he
      obtain ⟨rfl, rfl⟩ := he
      exact hp
  rw [h1]
  simp only [said, List.mem_flatMap, List.mem_map, Prod.mk.injEq]
  constructor
  · rintro ⟨⟨k', v⟩, hm, x, hx, rfl, he⟩
    exact ⟨v, hm, x, hx, he⟩
  · rintro ⟨v, hm, x, hx, he⟩
    exact ⟨(k, v), hm, x, hx, rfl, he⟩

/-- The codes of one name. -/
theorem pieces_of {enc : Str → Str → Py Str} {hs ps : List Hdr} (h : pieces enc hs = .ok ps) (hn : (hs.map (·.1)).Nodup) {k v : Str}
    (hm : (k, v) ∈ hs) : (((ps.filter fun p => decide (p.1 = k)).map (·.2)).map (Except.ok : Str → Py Str)).Perm ((parts k v).map (enc k)) := by
  have h1 : ((ps.map fun p => (p.1, (Except.ok p.2 : Py Str))).filter fun x => decide (x.1 = k)).Perm ((said enc hs).filter fun x => decide (x.1 = k)) :=
    (pieces_said h).filter _
  have h2 : ∀ hs : List Hdr, (hs.map (·.1)).Nodup → (k, v) ∈ hs → ((said enc hs).filter fun x => decide (x.1 = k)) = (parts k v).map fun x => (k, enc k x) := by
    have h0 : ∀ hs : List Hdr, k ∉ hs.map (·.1) → ((said enc hs).filter fun x => decide (x.1 = k)) = [] := by
      intro hs hk
      rw [List.filter_eq_nil_iff]
      rintro ⟨k', r⟩ hx
      simp only [said, List.mem_flatMap, List.mem_map, Prod.mk.injEq] at hx
      obtain ⟨⟨k'', v'⟩, hm', x, -, rfl, -⟩ := hx
      simp only [decide_eq_true_eq]
      intro he
      subst he
      exact hk (List.mem_map.2 ⟨(k'', v'), hm', rfl⟩)
    intro hs
    induction hs with
    | nil => intro _ hm; cases hm
    | cons p hs ih =>
      obtain ⟨k', v'⟩ := p
      intro hn hm
      rw [List.map_cons, List.nodup_cons] at hn
      have e : said enc ((k', v') :: hs) = ((parts k' v').map fun x => (k', enc k' x)) ++ said enc hs := rfl
      rw [e, List.filter_append]
      rcases List.mem_cons.1 hm with hm | hm
      · cases hm
        rw [h0 hs hn.1, List.append_nil, List.filter_eq_self]
        intro x hx
        obtain ⟨y, -, rfl⟩ := List.mem_map.1 hx
        simp
      · have hne : k' ≠ k := by
          rintro rfl
          exact hn.1 (List.mem_map.2 ⟨(_, v), hm, rfl⟩)
        rw [ih hn.2 hm, List.filter_eq_nil_iff.2, List.nil_append]
        intro x hx
        obtain ⟨y, -, rfl⟩ := List.mem_map.1 hx
        simpa using hne
  rw [h2 hs hn hm, List.filter_map] at h1
  have h3 := h1.map (·.2)
  simpa [List.map_map, Function.comp_def] using h3

theorem pieces_nodup {enc : Str → Str → Py Str} {hs ps : List Hdr} (h : pieces enc hs = .ok ps) (hs' : Sendable enc hs) : ps.Nodup := by
  rw [List.nodup_iff_pairwise_ne, List.pairwise_iff_getElem]
  intro i j hi hj hij heq
  obtain ⟨k, e, hp⟩ : ∃ k e, ps[i] = (k, e) := ⟨_, _, rfl⟩
  have hm : (k, e) ∈ ps := by rw [← hp]; exact List.getElem_mem hi
  obtain ⟨v, hv, -⟩ := (pieces_mem h k e).1 hm
  have hperm := pieces_of h hs'.names hv
  have hnd : ((parts k v).map (enc k)).Nodup := by
    by_cases hk : k = b!"cookie"
    · subst hk; exact hs'.crumbs v hv
    · simp [parts, hk]
  have h1 : ((ps.filter fun p => decide (p.1 = k)).map (·.2)).Nodup := List.Nodup.of_map _ (hperm.nodup_iff.2 hnd)
  have h2 : 2 ≤ ps.count (k, e) := by
    have : [ps[i], ps[j]].Sublist ps := by
      have := List.map_getElem_sublist (l := ps) (is := [⟨i, hi⟩, ⟨j, hj⟩]) (by simpa using hij)
      simpa using this
    have := this.count_le (k, e)
    rw [← heq, hp] at this
    simpa using this
  have h3 : 2 ≤ ((ps.filter fun p => decide (p.1 = k)).map (·.2)).count e := by
    refine h2.trans ?_
    rw [← List.count_filter (p := fun p : Hdr => decide (p.1 = k)) (by simp)]
    exact List.count_le_count_map (f := (·.2)) (x := (k, e))
  have := List.nodup_iff_count_le_one.1 h1 e
  omega

theorem pieces_size {enc : Str → Str → Py Str} {hs ps : List Hdr} (h : pieces enc hs = .ok ps) :
    ps.length = (said enc hs).length ∧ (ps.map hsize).sum = weight enc hs := by
  have hp := pieces_said h
  refine ⟨by simpa using hp.length_eq, ?_⟩
  have := (hp.map bytes).sum_eq
  rw [List.map_map] at this
  rw [weight, ← this]
  congr 1
  apply List.map_congr_left
  intro p _
  simp [hsize, bytes, Nat.add_comm]

/-! ### What is heard -/

theorem collect_get (es : List Entry) : ∀ (h : Dict Str Str) (x : Str), Dict.get? (collect es h) x =
    match Dict.get? h x with
    | some v => some (((es.filter fun e => decide (e.key = x)).map (·.val)).foldl (fun a y => a ++ [0] ++ y) v)
    | none => joined [0] ((es.filter fun e => decide (e.key = x)).map (·.val)) := by
  induction es with
  | nil =>
    intro h x
    simp only [collect, List.filter_nil, List.map_nil, List.foldl_nil, joined]
    cases Dict.get? h x <;> rfl
  | cons ve ves ih =>
    intro h x
    unfold collect
    by_cases hx : ve.key = x
    · subst hx
      simp only [decide_true, List.filter_cons_of_pos, List.map_cons]
      cases hg : Dict.get? h ve.key with
      | none =>
        simp only
        rw [ih, Dict.get?_set, if_pos rfl]
        rfl
      | some v =>
        simp only
        rw [ih, Dict.get?_set, if_pos rfl]
        rfl
    · rw [List.filter_cons_of_neg (by simpa using hx)]
      cases hg : Dict.get? h ve.key with
      | none =>
        simp only
        rw [ih, Dict.get?_set, if_neg hx]
      | some v =>
        simp only
        rw [ih, Dict.get?_set, if_neg hx]

theorem joined_fix (l : List Str) : (joined [0] l).map (fun v => v.flatMap fun x => if x = 0 then [59, 32] else [x]) =
    joined [59, 32] (l.map fun w => w.flatMap fun x => if x = 0 then [59, 32] else [x]) := by
  cases l with
  | nil => rfl
  | cons v vs =>
    simp only [joined, Option.map_some, Option.some.injEq, List.map_cons]
    have : ∀ (vs : List Str) (a b : Str), (a.flatMap fun x => if x = 0 then [59, 32] else [x]) = b →
        ((vs.foldl (fun a x => a ++ [0] ++ x) a).flatMap fun x => if x = 0 then [59, 32] else [x]) =
          (vs.map fun w => w.flatMap fun x => if x = 0 then [59, 32] else [x]).foldl (fun a x => a ++ [59, 32] ++ x) b := by
      intro vs
      induction vs with
      | nil => exact fun a b h => h
      | cons y vs ih =>
        intro a b hab
        refine ih _ _ ?_
        rw [List.flatMap_append, List.flatMap_append, hab]
        rfl
    exact this vs v _ rfl

theorem fixCookie_get (d : Dict Str Str) (k : Str) : (fixCookie d).get? k =
    if k = b!"cookie" then (d.get? k).map (fun v => v.flatMap fun x => if x = 0 then [59, 32] else [x]) else d.get? k := by
  unfold fixCookie
  by_cases hk : k = b!"cookie"
  · rw [if_pos hk]
    subst hk
    cases hq : d.get? b!"cookie" with
    | none => simp [hq]
    | some v => simp [Dict.get?_set]
  · rw [if_neg hk]
    cases hq : d.get? b!"cookie" with
    | none => rfl
    | some v =>
      simp only
      rw [Dict.get?_set, if_neg (fun e => hk e.symm)]

/-- The headers that are generated from the pieces of a message are those of the message. -/
theorem heard {enc : Str → Str → Py Str} {hs ps : List Hdr} (h : pieces enc hs = .ok ps) (hn : (hs.map (·.1)).Nodup) {es : List Entry}
    (hp : (es.map fun e => (e.key, e.val)).Perm ps) : Heard enc hs (fixCookie (collect es [])) := by
  have key : ∀ k, ((es.filter fun e => decide (e.key = k)).map (·.val)).Perm ((ps.filter fun p => decide (p.1 = k)).map (·.2)) := by
    intro k
    have := (hp.filter fun p => decide (p.1 = k)).map (·.2)
    rw [List.filter_map, List.map_map] at this
    exact this
  have hget : ∀ k, Dict.get? (collect es []) k = joined [0] ((es.filter fun e => decide (e.key = k)).map (·.val)) := by
    intro k
    have := collect_get es [] k
    simpa using this
  refine ⟨?_, ?_, ?_⟩
  · intro k hk w
    rw [fixCookie_get, if_neg hk, hget]
    have hkk := key k
    generalize (es.filter fun e => decide (e.key = k)).map (·.val) = l at hkk
    have hmem : ∀ w, w ∈ l ↔ ∃ v, (k, v) ∈ hs ∧ enc k v = .ok w := by
      intro w
      have e1 : w ∈ l ↔ (k, w) ∈ ps := by
        rw [hkk.mem_iff, List.mem_map]
        constructor
        · rintro ⟨⟨k', w'⟩, hm, rfl⟩
          obtain ⟨h1, h2⟩ := List.mem_filter.1 hm
          simp only [decide_eq_true_eq] at h2
          subst h2
          exact h1
        · exact fun hm => ⟨(k, w), List.mem_filter.2 ⟨hm, by simp⟩, rfl⟩
      rw [e1, pieces_mem h]
      simp [parts, hk]
    have hlen : l.length ≤ 1 := by
      by_contra hc
      have : ∃ w, w ∈ l := by
        cases l with
        | nil => simp at hc
        | cons w l => exact ⟨w, by simp⟩
      obtain ⟨w, hw⟩ := this
      obtain ⟨v, hv, -⟩ := (hmem w).1 hw
      have := (pieces_of h hn hv).length_eq
      rw [List.length_map, ← hkk.length_eq] at this
      simp [parts, hk] at this
      omega
    rw [← hmem]
    match l, hlen with
    | [], _ => simp [joined]
    | [a], _ => simp [joined, eq_comm]
  · intro v hv
    refine ⟨_, ((key b!"cookie").map _).trans (pieces_of h hn hv), ?_⟩
    rw [fixCookie_get, if_pos rfl, hget, joined_fix]
  · intro hno
    have : ((es.filter fun e => decide (e.key = b!"cookie")).map (·.val)) = [] := by
      rw [List.eq_nil_iff_forall_not_mem]
      intro w hw
      obtain ⟨⟨k', w'⟩, hm, rfl⟩ := List.mem_map.1 ((key _).mem_iff.1 hw)
      obtain ⟨h1, h2⟩ := List.mem_filter.1 hm
      simp only [decide_eq_true_eq] at h2
      subst h2
      obtain ⟨v, hv, -⟩ := (pieces_mem h _ _).1 h1
      exact hno v hv
    rw [fixCookie_get, if_pos rfl, hget, this]
    rfl

end Verif.Delta2Bohe
