import Verif.Delta2Bohe.MakeLemmas
import Verif.Delta1.CodecLemmas
import Mathlib.Data.List.Perm.Basic
/- Lemmas about a message in delta2_bohe: the sender and the receiver stay in step. -/
namespace Verif.Delta2Bohe
open Verif

/-! ### Loops -/

theorem storeEntries_append (gid : Nat) : ∀ (a b : List Hdr) (c : Codec),
    storeEntries gid (a ++ b) c = (storeEntries gid a c).bind (storeEntries gid b) := by
  intro a
  induction a with
  | nil => intro b c; rfl
  | cons h t ih =>
    intro b c
    obtain ⟨k, v⟩ := h
    simp only [List.cons_append, storeEntries, bind, Except.bind]
    cases storeEntry gid c k v with
    | error x => rfl
    | ok c' => simp only [ih]; rfl

theorem toggleAll_append (gid : Nat) : ∀ (a b : List Nat) (c : Codec),
    toggleAll gid (a ++ b) c = (toggleAll gid a c).bind (toggleAll gid b) := by
  intro a
  induction a with
  | nil => intro b c; rfl
  | cons i t ih =>
    intro b c
    simp only [List.cons_append, toggleAll, bind, Except.bind]
    cases toggle c gid i with
    | error x => rfl
    | ok c' => simp only [ih]; rfl

theorem execLoop_append (gid : Nat) : ∀ (a b : List Delta1.Op) (c : Codec),
    execLoop gid (a ++ b) c = (execLoop gid a c).bind (execLoop gid b) := by
  intro a
  induction a with
  | nil => intro b c; rfl
  | cons i t ih =>
    intro b c
    simp only [List.cons_append, execLoop, bind, Except.bind]
    cases execOp gid c i with
    | error x => rfl
    | ok c' => simp only [ih]; rfl

theorem execLoop_toggl (gid : Nat) : ∀ (is : List Nat) (c : Codec), execLoop gid (is.map .toggl) c = toggleAll gid is c := by
  intro is
  induction is with
  | nil => intro c; rfl
  | cons i t ih => intro c; simp only [List.map_cons, execLoop, execOp, toggleAll, ih]

theorem execLoop_trang (gid : Nat) : ∀ (rs : List (Nat × Nat)) (c : Codec), execLoop gid (rs.map fun x => .trang x.1 x.2) c =
    toggleAll gid (rs.flatMap fun r => Delta1.range r.1 r.2) c := by
  intro is
  induction is with
  | nil => intro c; rfl
  | cons i t ih =>
    intro c
    simp only [List.map_cons, execLoop, execOp, List.flatMap_cons, toggleAll_append, ih, Delta1.range]
    rfl

theorem execLoop_clone (gid : Nat) : ∀ (cs : List (Nat × Str × Bool)) (c : Codec),
    execLoop gid (cs.map fun x => .clone x.1 x.2.1) c = .ok c := by
  intro is
  induction is with
  | nil => intro c; rfl
  | cons i t ih => intro c; simp only [List.map_cons, execLoop, execOp, bind, Except.bind, ih]

theorem execLoop_kvsto (gid : Nat) : ∀ (ks : List (Str × Str × Bool)) (c : Codec),
    execLoop gid (ks.map fun x => .kvsto x.1 x.2.1) c = storeEntries gid (ks.map fun x => (x.1, x.2.1)) c := by
  intro is
  induction is with
  | nil => intro c; rfl
  | cons i t ih => intro c; simp only [List.map_cons, execLoop, execOp, storeEntries, ih]

theorem execLoop_ops (gid : Nat) (g : Instrs) (c : Codec) : execLoop gid g.ops c =
    (toggleAll gid (Delta1.toggleRanges g.toggl).all c).bind (storeEntries gid (g.kvsto.map fun x => (x.1, x.2.1))) := by
  simp only [Instrs.ops, execLoop_append, execLoop_toggl, Delta1.RangeSt.all, toggleAll_append]
  cases h1 : toggleAll gid (Delta1.toggleRanges g.toggl).ot c with
  | error x => rfl
  | ok c1 =>
    simp only [Except.bind, execLoop_trang]
    cases h2 : toggleAll gid (List.flatMap (fun r => Delta1.range r.1 r.2) (Delta1.toggleRanges g.toggl).otr) c1 with
    | error x => rfl
    | ok c2 => simp only [execLoop_clone, execLoop_kvsto]

theorem ops_clones (g : Instrs) : g.ops.filterMap cloneOf = g.clone.map fun x => (x.1, x.2.1) := by
  simp [Instrs.ops, List.filterMap_append, List.filterMap_map, Function.comp_def, cloneOf]

theorem afterL_append : ∀ (a b : List Hdr) (s : Lru), LruOk s → (∀ h ∈ a, hsize h ≤ 16384) → s.seqNum + a.length ≤ 65536 →
    afterL (a ++ b) s = afterL b (afterL a s) := by
  intro a
  induction a with
  | nil => intro b s _ _ _; rfl
  | cons h t ih =>
    intro b s hs hsz hq
    obtain ⟨k, v⟩ := h
    simp only [List.length_cons] at hq
    obtain ⟨n, hn, s', e, hs', hr, hsq, -⟩ := insL_spec hs k v (hsz (k, v) (by simp)) (by omega)
    simp only [List.cons_append, afterL, e]
    exact ih b s' hs' (fun x hx => hsz x (by simp [hx])) (by omega)

/-! ### Looking up -/

theorem lookupFromIdx_congr {c c' : Codec} (hs : c'.static = c.static) (hl : c'.lru = c.lru) (i : Nat) :
    lookupFromIdx c' i = lookupFromIdx c i := by
  unfold lookupFromIdx; rw [hs, hl]

theorem lookupAll_congr {c c' : Codec} (hs : c'.static = c.static) (hl : c'.lru = c.lru) : ∀ (is : List Nat),
    lookupAll c' is = lookupAll c is := by
  intro is
  induction is with
  | nil => rfl
  | cons i t ih => simp only [lookupAll, lookupFromIdx_congr hs hl, ih]

theorem translate_congr {c c' : Codec} (hs : c'.static = c.static) (hl : c'.lru = c.lru) : ∀ (is : List (Nat × Str)),
    translate c' is = translate c is := by
  intro is
  induction is with
  | nil => rfl
  | cons i t ih => obtain ⟨k, v⟩ := i; simp only [translate, lookupFromIdx_congr hs hl, ih]

theorem lookupAll_spec {c : Codec} (h : CodecOk c) : ∀ (is : List Nat), (∀ i ∈ is, Usable c i) →
    ∃ es, lookupAll c is = .ok es ∧ (es.map fun e => some (e.key, e.val)) = is.map (kvAt c) ∧ (∀ e ∈ es, hsize (e.key, e.val) ≤ 16384) := by
  intro is
  induction is with
  | nil => intro _; exact ⟨[], rfl, rfl, by simp⟩
  | cons i t ih =>
    intro hu
    obtain ⟨e, a, b, -, d⟩ := lookupFromIdx_spec h (hu i (by simp))
    obtain ⟨es, a', b', d'⟩ := ih (fun j hj => hu j (by simp [hj]))
    refine ⟨e :: es, by simp [lookupAll, a, a', bind, Except.bind, pure, Except.pure], by simp [b, b'], ?_⟩
    intro x hx
    rcases List.mem_cons.mp hx with rfl | hx
    · exact d
    · exact d' x hx

theorem translate_spec {c : Codec} (h : CodecOk c) : ∀ (cs : List (Nat × Str × Bool)), (∀ x ∈ cs, Usable c x.1) →
    ∃ kvs, translate c (cs.map fun x => (x.1, x.2.1)) = .ok kvs ∧ kvs.map some = cs.map (cloneHdr c) := by
  intro cs
  induction cs with
  | nil => intro _; exact ⟨[], rfl, rfl⟩
  | cons x t ih =>
    intro hu
    obtain ⟨e, a, b, -⟩ := lookupFromIdx_spec h (hu x (by simp))
    obtain ⟨kvs, a', b'⟩ := ih (fun j hj => hu j (by simp [hj]))
    refine ⟨(e.key, x.2.1) :: kvs, ?_, by simp [b', cloneHdr, b]⟩
    simp only [List.map_cons, translate, a, a', bind, Except.bind, pure, Except.pure]

/-! ### The headers of a message -/

/-- The encoded values of one header. -/
def encAll (enc : Str → Str → Py Str) (k : Str) : List Str → Py (List Hdr)
  | [] => .ok []
  | v :: vs => do
    let e ← enc k v
    let es ← encAll enc k vs
    pure ((k, e) :: es)

/-- What is to be sent: every header with its encoded value, a cookie as its crumbs. -/
def pieces (enc : Str → Str → Py Str) : List Hdr → Py (List Hdr)
  | [] => .ok []
  | (k, v) :: hs => do
    let a ← encAll enc k (if k = b!"cookie" then DeltaBohe.crumbs v else [v])
    let b ← pieces enc hs
    pure (a ++ b)

theorem procAll_append (ord : List Nat → List Nat) (gid : Nat) : ∀ (a b : List Hdr) (c : Codec) (g : Instrs),
    procAll ord gid (a ++ b) c g = (procAll ord gid a c g).bind fun r => procAll ord gid b r.1 r.2 := by
  intro a
  induction a with
  | nil => intro b c g; rfl
  | cons h t ih =>
    intro b c g
    obtain ⟨k, v⟩ := h
    simp only [List.cons_append, procAll, bind, Except.bind]
    cases processKV ord gid k v c g with
    | error x => rfl
    | ok r => simp only [ih]; rfl

theorem cookieLoop_eq {enc : Str → Str → Py Str} (ord : List Nat → List Nat) (gid : Nat) (k : Str) : ∀ (vs : List Str) {ps : List Hdr}
    (c : Codec) (g : Instrs), encAll enc k vs = .ok ps → cookieLoop enc ord gid k vs c g = procAll ord gid ps c g := by
  intro vs
  induction vs with
  | nil => intro ps c g h; cases h; rfl
  | cons v vs ih =>
    intro ps c g h
    simp only [encAll, bind, Except.bind] at h
    cases h1 : enc k v with
    | error x => simp [h1] at h
    | ok e =>
      cases h2 : encAll enc k vs with
      | error x => simp [h1, h2] at h
      | ok es =>
        simp only [h1, h2, pure, Except.pure, Except.ok.injEq] at h
        subst h
        simp only [cookieLoop, procAll, h1, bind, Except.bind]
        cases processKV ord gid k e c g with
        | error x => rfl
        | ok r => exact ih r.1 r.2 h2

theorem headersLoop_eq {enc : Str → Str → Py Str} (ord : List Nat → List Nat) (gid : Nat) : ∀ (hs : List Hdr) {ps : List Hdr}
    (c : Codec) (g : Instrs), pieces enc hs = .ok ps → headersLoop enc ord gid hs c g = procAll ord gid ps c g := by
  intro hs
  induction hs with
  | nil => intro ps c g h; cases h; rfl
  | cons x hs ih =>
    intro ps c g h
    obtain ⟨k, v⟩ := x
    simp only [pieces, bind, Except.bind] at h
    cases h1 : encAll enc k (if k = b!"cookie" then DeltaBohe.crumbs v else [v]) with
    | error x => simp [h1] at h
    | ok a =>
      cases h2 : pieces enc hs with
      | error x => simp [h1, h2] at h
      | ok b =>
        simp only [h1, h2, pure, Except.pure, Except.ok.injEq] at h
        subst h
        rw [procAll_append]
        by_cases hk : k = b!"cookie"
        · rw [if_pos hk] at h1
          simp only [headersLoop, hk, if_true]
          rw [← hk, cookieLoop_eq ord gid k _ c g h1]
          cases procAll ord gid a c g with
          | error x => rfl
          | ok r => exact ih r.1 r.2 h2
        · rw [if_neg hk] at h1
          simp only [headersLoop, hk, if_false]
          have := cookieLoop_eq ord gid k [v] c g h1
          rw [← this]
          simp only [cookieLoop, bind, Except.bind]
          cases h3 : enc k v with
          | error x => rfl
          | ok e =>
            simp only
            cases processKV ord gid k e c g with
            | error x => rfl
            | ok r => exact ih r.1 r.2 h2

end Verif.Delta2Bohe
