import Verif.DeltaBohe.StateLemmas
import Verif.DeltaBohe.Spec
import Mathlib.Data.List.Forall2
/-
delta_bohe: what the operations of a message do to the header group.
-/
namespace Verif.DeltaBohe
open Verif Verif.Bits Verif.Huff Verif.Bohe

/-! ### The encoded headers -/

/-- Encoding a list of values. -/
def encList (L : Libs) (k : Str) : List Str → Py (List Hdr)
  | [] => .ok []
  | x :: xs => do
    let e ← encodeField L k x
    let es ← encList L k xs
    pure ((k, e) :: es)

/-- The parts of a value in the order in which they are processed. -/
def orderedParts (k v : Str) : List Str := if k = b!"cookie" then crumbs v else [v]

/-- The encoded headers of a message in the order in which they are processed. -/
def sentList (L : Libs) : List Hdr → Py (List Hdr)
  | [] => .ok []
  | (k, v) :: hs => do
    let es ← encList L k (orderedParts k v)
    let rest ← sentList L hs
    pure (es ++ rest)

theorem processAll_append (a b : List Hdr) : ∀ (c : Codec) (g : Instrs),
    processAll (a ++ b) c g = (processAll a c g).bind fun r => processAll b r.1 r.2 := by
  induction a with
  | nil => intro c g; rfl
  | cons kv a ih =>
    intro c g
    simp only [List.cons_append, processAll, bind, Except.bind]
    cases processKV kv.1 kv.2 c g with
    | error e => rfl
    | ok r => exact ih _ _

theorem processAll_ok {g : Nat} {hs : List Hdr} {c : Codec} (h : Core c) (hg : c.generation = some g) (x : Instrs) :
    ∃ c' x', processAll hs c x = .ok (c', x') ∧ Core c' ∧ c'.generation = some g :=
  ⟨_, _, processAll_spec hs h hg x, h.mapE (touch_idx g _) (touch_kv g _), hg⟩

theorem cookieLoop_eq (L : Libs) (k : Str) {g : Nat} (xs : List Str) : ∀ {c : Codec} (_ : Core c) (_ : c.generation = some g)
    (y : Instrs), cookieLoop L k xs c y = (encList L k xs).bind fun es => processAll es c y := by
  induction xs with
  | nil => intro c h hg y; rfl
  | cons x xs ih =>
    intro c h hg y
    simp only [cookieLoop, encList, bind, Except.bind]
    cases encodeField L k x with
    | error e => rfl
    | ok e =>
      obtain ⟨c', y', e1, h1, g1⟩ := processAll_ok (hs := [(k, e)]) h hg y
      have e2 : processKV k e c y = .ok (c', y') := by
        simp only [processAll, bind, Except.bind] at e1
        cases hp : processKV k e c y with
        | error z => rw [hp] at e1; cases e1
        | ok r => rw [hp] at e1; exact e1
      simp only [e2, ih h1 g1]
      cases encList L k xs with
      | error z => rfl
      | ok es => simp only [Except.bind, pure, Except.pure, processAll, bind, e2]

theorem headersLoop_eq (L : Libs) {g : Nat} (hs : List Hdr) : ∀ {c : Codec} (_ : Core c) (_ : c.generation = some g)
    (y : Instrs), headersLoop L hs c y = (sentList L hs).bind fun es => processAll es c y := by
  induction hs with
  | nil => intro c h hg y; rfl
  | cons p hs ih =>
    intro c h hg y
    obtain ⟨k, v⟩ := p
    have hone : ∀ (xs : List Str), (do
        let (c, y) ← cookieLoop L k xs c y
        headersLoop L hs c y) = (do
          let es ← encList L k xs
          let rest ← sentList L hs
          pure (es ++ rest) : Py (List Hdr)).bind fun es => processAll es c y := by
      intro xs
      simp only [bind, Except.bind, cookieLoop_eq L k xs h hg]
      cases encList L k xs with
      | error e => rfl
      | ok es =>
        obtain ⟨c', y', e1, h1, g1⟩ := processAll_ok (hs := es) h hg y
        simp only [e1, ih h1 g1]
        cases sentList L hs with
        | error e => rfl
        | ok rest => simp only [Except.bind, pure, Except.pure, processAll_append, e1]
    unfold headersLoop sentList orderedParts
    split
    · exact hone _
    · rw [← hone [v]]
      simp only [cookieLoop, bind, Except.bind]
      cases encodeField L k v with
      | error e => rfl
      | ok e => simp only; cases processKV k e c y <;> rfl

theorem forall₂_right {α β : Type} {R : α → β → Prop} {as : List α} {bs : List β} (h : List.Forall₂ R as bs) {b : β}
    (hb : b ∈ bs) : ∃ a ∈ as, R a b := by
  induction h with
  | nil => cases hb
  | cons h _ ih =>
    rcases List.mem_cons.1 hb with rfl | hb
    · exact ⟨_, by simp, h⟩
    · obtain ⟨a, ha, hr⟩ := ih hb
      exact ⟨a, by simp [ha], hr⟩

theorem forall₂_left {α β : Type} {R : α → β → Prop} {as : List α} {bs : List β} (h : List.Forall₂ R as bs) {a : α}
    (ha : a ∈ as) : ∃ b ∈ bs, R a b := by
  induction h with
  | nil => cases ha
  | cons h _ ih =>
    rcases List.mem_cons.1 ha with rfl | ha
    · exact ⟨_, by simp, h⟩
    · obtain ⟨b, hb, hr⟩ := ih ha
      exact ⟨b, by simp [hb], hr⟩

theorem encList_ok {L : Libs} {k : Str} : ∀ {xs : List Str} {es : List Hdr}, encList L k xs = .ok es →
    List.Forall₂ (fun x kv => kv.1 = k ∧ encodeField L k x = .ok kv.2) xs es := by
  intro xs
  induction xs with
  | nil => intro es h; cases h; exact .nil
  | cons x xs ih =>
    intro es h
    simp only [encList, bind, Except.bind] at h
    cases he : encodeField L k x with
    | error e => rw [he] at h; cases h
    | ok e =>
      rw [he] at h
      cases hr : encList L k xs with
      | error e => rw [hr] at h; cases h
      | ok r => rw [hr] at h; cases h; exact .cons ⟨rfl, he⟩ (ih hr)

theorem parts_perm (k v : Str) : (orderedParts k v).Perm (Spec.parts k v) := by
  unfold orderedParts Spec.parts crumbs
  split
  · exact sortBy_perm _ _
  · exact .refl _

/-- The encoded headers are what the message says. -/
theorem sentList_says {L : Libs} : ∀ {hs : List Hdr} {es : List Hdr}, sentList L hs = .ok es →
    ∀ kv, kv ∈ es ↔ Spec.Says L hs kv := by
  intro hs
  induction hs with
  | nil => intro es h kv; cases h; simp [Spec.Says]
  | cons p hs ih =>
    intro es h kv
    obtain ⟨k, v⟩ := p
    simp only [sentList, bind, Except.bind] at h
    cases h1 : encList L k (orderedParts k v) with
    | error e => rw [h1] at h; cases h
    | ok a =>
      rw [h1] at h
      cases h2 : sentList L hs with
      | error e => rw [h2] at h; cases h
      | ok b =>
        rw [h2] at h
        cases h
        have hf := encList_ok h1
        simp only [List.mem_append, ih h2 kv, Spec.Says, List.mem_cons, Prod.mk.injEq]
        constructor
        · rintro (hm | ⟨v', hv', x, hx, he⟩)
          · obtain ⟨x, hx, hk, he⟩ := forall₂_right hf hm
            refine ⟨v, .inl ⟨hk, rfl⟩, x, ?_, by rw [hk]; exact he⟩
            rw [hk]; exact (parts_perm k v).mem_iff.1 hx
          · exact ⟨v', .inr hv', x, hx, he⟩
        · rintro ⟨v', ⟨hk, rfl⟩ | hv', x, hx, he⟩
          · left
            rw [hk] at hx he
            obtain ⟨y, hy, hk', he'⟩ := forall₂_left hf ((parts_perm k v').mem_iff.2 hx)
            have : y = kv := Prod.ext (hk'.trans hk.symm) (Except.ok.inj (he'.symm.trans he))
            rwa [← this]
          · exact .inr ⟨v', hv', x, hx, he⟩

theorem encList_total {L : Libs} {k : Str} : ∀ {xs : List Str}, (∀ x ∈ xs, ∃ e, encodeField L k x = .ok e) →
    ∃ es, encList L k xs = .ok es := by
  intro xs
  induction xs with
  | nil => exact fun _ => ⟨[], rfl⟩
  | cons x xs ih =>
    intro h
    obtain ⟨e, he⟩ := h x (by simp)
    obtain ⟨es, hes⟩ := ih fun y hy => h y (by simp [hy])
    exact ⟨(k, e) :: es, by simp [encList, bind, Except.bind, he, hes, pure, Except.pure]⟩

theorem sentList_total {L : Libs} : ∀ {hs : List Hdr}, Spec.Encodable L hs → ∃ es, sentList L hs = .ok es := by
  intro hs
  induction hs with
  | nil => exact fun _ => ⟨[], rfl⟩
  | cons p hs ih =>
    intro h
    obtain ⟨k, v⟩ := p
    obtain ⟨a, ha⟩ := encList_total (L := L) (k := k) (xs := orderedParts k v)
      fun x hx => h k v (by simp) x ((parts_perm k v).mem_iff.1 hx)
    obtain ⟨b, hb⟩ := ih fun k' v' hm => h k' v' (by simp [hm])
    exact ⟨a ++ b, by simp [sentList, bind, Except.bind, ha, hb, pure, Except.pure]⟩

theorem encList_nodup {L : Libs} {k : Str} {xs : List Str} {es : List Hdr} (h : encList L k xs = .ok es) :
    es.Nodup ↔ (xs.map (encodeField L k)).Nodup := by
  have hf := encList_ok h
  have hm : (xs.map (encodeField L k)) = es.map fun kv => .ok kv.2 := by
    clear h
    induction hf with
    | nil => rfl
    | cons h1 _ ih => rw [List.map_cons, List.map_cons, ih, h1.2]
  rw [hm]
  constructor
  · intro hn
    refine List.Nodup.map_on ?_ hn
    intro a ha b hb hab
    obtain ⟨_, _, h1, _⟩ := forall₂_right hf ha
    obtain ⟨_, _, h2, _⟩ := forall₂_right hf hb
    exact Prod.ext (h1.trans h2.symm) (Except.ok.inj hab)
  · exact List.Nodup.of_map _

theorem sentList_nodup {L : Libs} : ∀ {hs : List Hdr} {es : List Hdr}, sentList L hs = .ok es →
    (hs.map (·.1)).Nodup → Spec.Crumbs L hs → es.Nodup := by
  intro hs
  induction hs with
  | nil => intro es h _ _; cases h; exact .nil
  | cons p hs ih =>
    intro es h hn hc
    obtain ⟨k, v⟩ := p
    simp only [sentList, bind, Except.bind] at h
    cases h1 : encList L k (orderedParts k v) with
    | error e => rw [h1] at h; cases h
    | ok a =>
      rw [h1] at h
      cases h2 : sentList L hs with
      | error e => rw [h2] at h; cases h
      | ok b =>
        rw [h2] at h
        cases h
        rw [List.map_cons, List.nodup_cons] at hn
        refine List.Nodup.append ((encList_nodup h1).2 ?_) (ih h2 hn.2 fun v hv => hc v (by simp [hv])) ?_
        · rw [((parts_perm k v).map _).nodup_iff]
          by_cases hk : k = b!"cookie"
          · subst hk; exact hc v (by simp)
          · simp [Spec.parts, hk]
        · intro kv ha hb
          obtain ⟨_, _, hk, _⟩ := forall₂_right (encList_ok h1) ha
          obtain ⟨v', hv', _⟩ := (sentList_says h2 kv).1 hb
          exact hn.1 (List.mem_map.2 ⟨_, hv', hk⟩)

/-! ### Toggles -/

/-- Toggling an entry. -/
def flip (g : Nat) (e : VE) : VE := { e with gen := if e.gen.isSome then none else some g }

theorem toggle_spec {c : Codec} (h : Core c) {g : Nat} (hg : c.generation = some g) {i : Nat}
    (hi : i ∈ c.entries.map (·.idx)) :
    toggle c i = .ok (mapE (fun e => if e.idx = i then flip g e else e) c) := by
  obtain ⟨e, he, rfl⟩ := List.mem_map.1 hi
  have hf : c.entries.find? (fun x => decide (x.idx = e.idx)) = some e := by
    cases hf : c.entries.find? (fun x => decide (x.idx = e.idx)) with
    | none => exact absurd (List.find?_eq_none.1 hf e he) (by simp)
    | some x =>
      have h1 := List.find?_some hf
      rw [h.idx_inj (List.mem_of_find?_eq_some hf) he (by simpa using h1)]
  simp only [toggle, hf, hg, update_mapE, Except.ok.injEq]
  refine mapE_congr fun x hx => ?_
  split
  · next hxe => rw [h.idx_inj hx he hxe]; rfl
  · rfl

theorem toggle_error {c : Codec} {i : Nat} (hi : i ∉ c.entries.map (·.idx)) : toggle c i = .error .key := by
  have : c.entries.find? (fun x => decide (x.idx = i)) = none := by
    rw [List.find?_eq_none]
    intro x hx
    simp only [decide_eq_true_eq]
    exact fun e => hi (List.mem_map.2 ⟨x, hx, e⟩)
  simp only [toggle, this]

/-- Toggling an entry several times. -/
def flips (g : Nat) : Nat → VE → VE
  | 0, e => e
  | n + 1, e => flips g n (flip g e)

theorem flips_idx (g n : Nat) : ∀ e : VE, (flips g n e).idx = e.idx := by
  induction n with
  | zero => exact fun _ => rfl
  | succ n ih => exact fun e => ih (flip g e)

theorem flips_kv (g n : Nat) : ∀ e : VE, (flips g n e).kv = e.kv := by
  induction n with
  | zero => exact fun _ => rfl
  | succ n ih => exact fun e => ih (flip g e)

theorem toggleAll_spec {g : Nat} (ts : List Nat) : ∀ {c : Codec} (_ : Core c) (_ : c.generation = some g)
    (_ : ∀ i ∈ ts, i ∈ c.entries.map (·.idx)),
    toggleAll ts c = .ok (mapE (fun e => flips g (ts.count e.idx) e) c) := by
  induction ts with
  | nil =>
    intro c h hg _
    have : mapE (fun e => flips g (List.count e.idx []) e) c = c := mapE_id c
    simp only [toggleAll, this]
  | cons i ts ih =>
    intro c h hg hi
    have hidx : ∀ e : VE, (if e.idx = i then flip g e else e).idx = e.idx := by
      intro e; split <;> rfl
    have hkv : ∀ e : VE, (if e.idx = i then flip g e else e).kv = e.kv := by
      intro e; split <;> rfl
    have he : (mapE (fun e => if e.idx = i then flip g e else e) c).entries.map (·.idx) = c.entries.map (·.idx) := by
      rw [entries_mapE, List.map_map]
      exact List.map_congr_left fun e _ => hidx e
    simp only [toggleAll, bind, Except.bind, toggle_spec h hg (hi i (by simp))]
    rw [ih (h.mapE hidx hkv) hg (fun j hj => by rw [he]; exact hi j (by simp [hj])), mapE_mapE]
    congr 1
    refine mapE_congr fun e _ => ?_
    simp only [Function.comp]
    rw [hidx]
    by_cases hx : e.idx = i
    · rw [if_pos hx, ← hx, List.count_cons_self]; rfl
    · rw [if_neg hx, List.count_cons_of_ne (Ne.symm hx)]

/-- The entries of a message, and no others, are in the header group. -/
def setGen (g : Nat) (hs : List Hdr) (e : VE) : VE := { e with gen := if e.kv ∈ hs then some g else none }

theorem mem_toggles {c : Codec} (h : Core c) (hs : List Hdr) (i : Nat) :
    i ∈ hs.filterMap (toggleOf c) ↔ ∃ e ∈ c.entries, e.idx = i ∧ e.kv ∈ hs ∧ e.gen = none := by
  simp only [List.mem_filterMap, toggleOf]
  constructor
  · rintro ⟨kv, hkv, he⟩
    cases hf : findVal c kv.1 kv.2 with
    | none => rw [hf] at he; cases he
    | some e =>
      obtain ⟨h1, h2⟩ := findVal_some hf
      rw [hf, Option.bind_some] at he
      split at he
      · next hn => exact ⟨e, h1, Option.some.inj he, by rw [h2]; exact hkv, by simpa using hn⟩
      · cases he
  · rintro ⟨e, he, rfl, hkv, hg⟩
    refine ⟨e.kv, hkv, ?_⟩
    have := findVal_of_mem h he
    simp [VE.kv, this, hg]

theorem toggles_nodup {c : Codec} (h : Core c) {hs : List Hdr} (hn : hs.Nodup) : (hs.filterMap (toggleOf c)).Nodup := by
  refine List.Nodup.filterMap ?_ hn
  intro a b i ha hb
  have key : ∀ kv : Hdr, i ∈ toggleOf c kv → ∃ e ∈ c.entries, e.idx = i ∧ e.kv = kv := by
    intro kv hkv
    unfold toggleOf at hkv
    cases hf : findVal c kv.1 kv.2 with
    | none => rw [hf] at hkv; cases hkv
    | some e =>
      obtain ⟨h1, h2⟩ := findVal_some hf
      rw [hf, Option.bind_some] at hkv
      split at hkv
      · exact ⟨e, h1, Option.some.inj hkv, h2⟩
      · cases hkv
  obtain ⟨e, he, hi, rfl⟩ := key a ha
  obtain ⟨e', he', hi', rfl⟩ := key b hb
  rw [h.idx_inj he he' (hi.trans hi'.symm)]

theorem mem_turnOffs {ord : List VE → List VE} (ho : ∀ l, (ord l).Perm l) (c : Codec) (i : Nat) :
    i ∈ turnOffs ord c ↔ ∃ e ∈ c.entries, e.idx = i ∧ e.gen.isSome ∧ e.gen ≠ c.generation := by
  unfold turnOffs
  simp only [List.mem_map, List.mem_filter, (ho _).mem_iff, decide_eq_true_eq]
  constructor
  · rintro ⟨e, ⟨⟨h1, h2⟩, h3⟩, h4⟩; exact ⟨e, h1, h4, h2, h3⟩
  · rintro ⟨e, h1, h4, h2, h3⟩; exact ⟨e, ⟨⟨h1, h2⟩, h3⟩, h4⟩

theorem turnOffs_nodup {ord : List VE → List VE} (ho : ∀ l, (ord l).Perm l) {c : Codec} (h : Core c) :
    (turnOffs ord c).Nodup := by
  unfold turnOffs
  have h1 : (((ord (c.entries.filter fun ve => ve.gen.isSome)).filter fun ve => ve.gen ≠ c.generation).map VE.idx).Sublist
      ((ord (c.entries.filter fun ve => ve.gen.isSome)).map VE.idx) := List.filter_sublist.map _
  refine h1.nodup ?_
  rw [((ho _).map VE.idx).nodup_iff]
  exact (List.filter_sublist.map _).nodup h.idx

/-- After the toggles of a message without repetitions, its stored headers are in the header group. -/
theorem toggled {c : Codec} (h : Core c) {g : Nat} (hg : c.generation = some g)
    (hgen : ∀ e ∈ c.entries, e.gen ≠ some g) {hs : List Hdr} (hn : hs.Nodup) {ord : List VE → List VE}
    (ho : ∀ l, (ord l).Perm l) :
    toggleAll (hs.filterMap (toggleOf c) ++ turnOffs ord (mapE (touch g hs) c)) (mapE (touch g hs) c) =
      .ok (mapE (setGen g hs) c) := by
  have hc' := h.mapE (touch_idx g hs) (touch_kv g hs)
  have hidx : (mapE (touch g hs) c).entries.map (·.idx) = c.entries.map (·.idx) := by
    rw [entries_mapE, List.map_map]
    exact List.map_congr_left fun e _ => touch_idx g hs e
  have hoff : ∀ i, i ∈ turnOffs ord (mapE (touch g hs) c) ↔ ∃ e ∈ c.entries, e.idx = i ∧ e.gen.isSome ∧ e.kv ∉ hs := by
    intro i
    rw [mem_turnOffs ho, entries_mapE]
    constructor
    · rintro ⟨x, hx, rfl, h1, h2⟩
      obtain ⟨e, he, rfl⟩ := List.mem_map.1 hx
      refine ⟨e, he, (touch_idx g hs e).symm, by rwa [touch_isSome] at h1, fun hm => h2 ?_⟩
      unfold touch
      rw [touch_isSome] at h1
      rw [if_pos ⟨hm, h1⟩]
      exact hg.symm
    · rintro ⟨e, he, rfl, h1, h2⟩
      refine ⟨_, List.mem_map.2 ⟨e, he, rfl⟩, touch_idx g hs e, by rwa [touch_isSome], ?_⟩
      unfold touch
      rw [if_neg fun hx => h2 hx.1]
      show e.gen ≠ c.generation
      rw [hg]
      exact hgen e he
  rw [toggleAll_spec _ hc' hg, mapE_mapE]
  · congr 1
    refine mapE_congr fun e he => ?_
    simp only [Function.comp, touch_idx]
    have hnd : (hs.filterMap (toggleOf c) ++ turnOffs ord (mapE (touch g hs) c)).Nodup := by
      refine List.Nodup.append (toggles_nodup h hn) (turnOffs_nodup ho hc') ?_
      intro i h1 h2
      obtain ⟨a, ha, hai, -, hg1⟩ := (mem_toggles h hs i).1 h1
      obtain ⟨b, hb, hbi, hg2, -⟩ := (hoff i).1 h2
      rw [h.idx_inj ha hb (hai.trans hbi.symm)] at hg1
      rw [hg1] at hg2
      cases hg2
    rw [hnd.count]
    have hmem : e.idx ∈ hs.filterMap (toggleOf c) ++ turnOffs ord (mapE (touch g hs) c) ↔
        (e.kv ∈ hs ∧ e.gen = none) ∨ (e.kv ∉ hs ∧ e.gen.isSome) := by
      rw [List.mem_append, mem_toggles h, hoff]
      constructor
      · rintro (⟨a, ha, hai, h1, h2⟩ | ⟨a, ha, hai, h1, h2⟩)
        · rw [h.idx_inj ha he hai] at h1 h2; exact .inl ⟨h1, h2⟩
        · rw [h.idx_inj ha he hai] at h1 h2; exact .inr ⟨h2, h1⟩
      · rintro (⟨h1, h2⟩ | ⟨h1, h2⟩)
        · exact .inl ⟨e, he, rfl, h1, h2⟩
        · exact .inr ⟨e, he, rfl, h2, h1⟩
    simp only [hmem]
    unfold touch setGen
    by_cases h1 : e.kv ∈ hs
    · cases h2 : e.gen with
      | none => simp [h1, flips, flip, h2]
      | some n => simp [h1, flips]
    · cases h2 : e.gen with
      | none => simp [h1, flips]; rw [← h2]
      | some n => simp [h1, flips, flip, h2]
  · intro i hi
    rw [hidx]
    rcases List.mem_append.1 hi with hi | hi
    · obtain ⟨e, he, rfl, -⟩ := (mem_toggles h hs i).1 hi
      exact List.mem_map.2 ⟨e, he, rfl⟩
    · obtain ⟨e, he, rfl, -⟩ := (hoff i).1 hi
      exact List.mem_map.2 ⟨e, he, rfl⟩

end Verif.DeltaBohe
