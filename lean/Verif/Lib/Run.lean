import Verif.Lib.Lemmas
/-
Lemmas about totals, TSV, HAR import, streamifiers and the session loop.
-/
namespace Verif.Lib
open Verif Verif.Lib.Spec

/-! ### totals -/

/-- The lists recorded under `k`, none if `k` is absent everywhere. -/
theorem foldl_merge_get {β : Type} (ds : List (Dict Str (List β))) : ∀ (d : Dict Str (List β)),
    d.WF → (∀ e ∈ ds, e.WF) → ∀ k,
    (ds.foldl mergeDols d).get? k =
      if (∀ e ∈ d :: ds, e.get? k = none) then none
      else some ((d :: ds).flatMap fun e => (e.get? k).getD []) := by
  induction ds with
  | nil =>
    intro d _ _ k
    cases h : d.get? k with
    | none => simp [h]
    | some l => simp [h]
  | cons e ds ih =>
    intro d hd hds k
    rw [List.foldl_cons, ih _ (mergeDols_wf hd) (fun x hx => hds x (by simp [hx])) k]
    have hm := mergeDols_get hd (hds e (by simp)) k
    cases h1 : d.get? k <;> cases h2 : e.get? k <;> simp_all

theorem foldl_merge_wf {β : Type} (ds : List (Dict Str (List β))) : ∀ (d : Dict Str (List β)),
    d.WF → (ds.foldl mergeDols d).WF := by
  induction ds with
  | nil => intro d h; exact h
  | cons e ds ih => intro d h; exact ih _ (mergeDols_wf h)

theorem addAll_spec {M : Type} (js : List Nat) : ∀ (w : World M) (acc : Nat) (a : Stream) (la : List M)
    (bs : List Stream) (ls : List (List M)),
    w.streams[acc]? = some a → w.lists[a.messages]? = some la →
    js.map (fun j => w.streams[j]?) = bs.map some →
    bs.map (fun b => w.lists[b.messages]?) = ls.map some →
    (∀ b ∈ bs, b.isReq = a.isReq ∧ b.messages ≠ a.messages) →
    ∃ w' t s extra, addAll w acc js = .ok (w', t) ∧ w'.streams = w.streams ++ extra ∧
      w'.streams[t]? = some s ∧ s.messages = a.messages ∧ s.isReq = a.isReq ∧ s.procs = a.procs ∧
      s.results.sizes = (bs.map (·.results.sizes)).foldl mergeDols a.results.sizes ∧
      s.results.ratios = (bs.map (·.results.ratios)).foldl mergeDols a.results.ratios ∧
      w'.lists = w.lists.set a.messages (la ++ ls.flatten) ∧
      (js = [] → t = acc ∧ w' = w) ∧ (js ≠ [] → w.streams.length ≤ t) := by
  induction js with
  | nil =>
    intro w acc a la bs ls h1 h2 h3 h4 _
    cases bs with
    | cons b bs => simp at h3
    | nil =>
      cases ls with
      | cons l ls => simp at h4
      | nil =>
        refine ⟨w, acc, a, [], rfl, by simp, h1, rfl, rfl, rfl, rfl, rfl, ?_, fun _ => ⟨rfl, rfl⟩,
          fun h => absurd rfl h⟩
        obtain ⟨h5, h6⟩ := List.getElem?_eq_some_iff.1 h2
        simp [← h6]
  | cons j js ih =>
    intro w acc a la bs ls h1 h2 h3 h4 h5
    cases bs with
    | nil => simp at h3
    | cons b bs =>
      cases ls with
      | nil => simp at h4
      | cons lb ls =>
        simp only [List.map_cons, List.cons.injEq] at h3 h4
        obtain ⟨hreq, hne⟩ := h5 b (by simp)
        have hstep : addStreams w acc j = .ok
            (⟨w.lists.set a.messages (la ++ lb), w.streams ++ [sumStream a b]⟩, w.streams.length) := by
          unfold addStreams
          rw [h1, h3.1]
          simp only
          rw [if_neg (by simp [hreq]), h2, h4.1]
        have halt : a.messages < w.lists.length := (List.getElem?_eq_some_iff.1 h2).1
        obtain ⟨w', t, s, extra, i1, i2, i3, i4, i5, i6, i7, i8, i9, i10, i11⟩ := ih
          ⟨w.lists.set a.messages (la ++ lb), w.streams ++ [sumStream a b]⟩
          w.streams.length (sumStream a b) (la ++ lb) bs ls (by simp)
          (by simp [halt, sumStream])
          (by
            rw [← h3.2]
            apply List.map_congr_left
            intro x hx
            have hx' : w.streams[x]? ∈ bs.map some := by
              rw [← h3.2]; exact List.mem_map.2 ⟨x, hx, rfl⟩
            obtain ⟨y, _, hy⟩ := List.mem_map.1 hx'
            have hlt := (List.getElem?_eq_some_iff.1 hy.symm).1
            rw [List.getElem?_append_left hlt])
          (by
            rw [← h4.2]
            apply List.map_congr_left
            intro x hx
            simp only
            rw [List.getElem?_set_ne (h5 x (by simp [hx])).2.symm])
          (fun x hx => h5 x (by simp [hx]))
        refine ⟨w', t, s, sumStream a b :: extra, ?_, ?_, i3, i4, i5, i6, ?_, ?_, ?_, (by intro h; cases h), ?_⟩
        · unfold addAll
          rw [hstep]
          exact i1
        · rw [i2]; simp
        · rw [i7]; rfl
        · rw [i8]; rfl
        · rw [i9]; simp [sumStream]
        · intro _
          by_cases hjs : js = []
          · have := (i10 hjs).1; omega
          · have := i11 hjs; simp at this; omega

/-! ### TSV -/

theorem zipAll_get (n : Nat) : ∀ (ls : List (List Nat)), ls ≠ [] → (∀ l ∈ ls, l.length = n) →
    (zipAll ls).length = n ∧
    ∀ j, j < n → (zipAll ls)[j]? = some (ls.map fun l => match l[j]? with | some x => x | none => 0)
  | [], h, _ => absurd rfl h
  | [l], _, h => by
    have hl := h l (by simp)
    refine ⟨by simp [zipAll, hl], fun j hj => ?_⟩
    have hj' : j < l.length := by omega
    simp [zipAll, hj']
  | l :: m :: ls, _, h => by
    obtain ⟨h1, h2⟩ := zipAll_get n (m :: ls) (by simp) (fun x hx => h x (by simp [hx]))
    have hl := h l (by simp)
    refine ⟨?_, fun j hj => ?_⟩
    · rw [zipAll]; simp [h1, hl]; simp
    · have hj' : j < l.length := by omega
      rw [zipAll, List.getElem?_zipWith, h2 j hj]
      simp [hj']
      simp

theorem numberRows_spec (name : Str) (lines : List (List Nat)) : ∀ count,
    numberRows name count lines =
      (lines.zipIdx.map (fun p => ⟨count + p.2 + 1, name, p.1⟩), count + lines.length) := by
  induction lines with
  | nil => intro count; rfl
  | cons l ls ih =>
    intro count
    rw [numberRows, ih]
    simp only [List.zipIdx_cons, List.map_cons, List.length_cons, Prod.mk.injEq, List.cons.injEq]
    refine ⟨⟨by simp, ?_⟩, by omega⟩
    rw [List.zipIdx_succ]
    simp only [List.map_map]
    apply List.map_congr_left
    intro p _
    simp only [Function.comp_apply, TsvRow.mk.injEq, and_true]
    omega

/-! ### HAR import -/

/-- The name under which a header line is filed. -/
def filedName (lower : Str → Str) (n : Str) : Str := if lower n = b!"host" then b!":host" else lower n

theorem joinWith_append {sep : Str} {l m : List Str} (hl : l ≠ []) (hm : m ≠ []) :
    joinWith sep (l ++ m) = joinWith sep l ++ sep ++ joinWith sep m := by
  induction l with
  | nil => exact absurd rfl hl
  | cons p ps ih =>
    cases ps with
    | nil =>
      cases m with
      | nil => exact absurd rfl hm
      | cons q qs => simp [joinWith]
    | cons q qs =>
      have := ih (by simp)
      simp only [List.cons_append, joinWith] at this ⊢
      rw [this]; simp

theorem processHeaders_spec (lower : Str → Str) (hs : List Hdr) : ∀ (out : Dict Str Str), out.WF →
    ((∃ h ∈ hs, lower h.1 = []) → processHeaders lower hs out = .error .standard) ∧
    ((∀ h ∈ hs, lower h.1 ≠ []) → ∃ d, processHeaders lower hs out = .ok d ∧ d.WF ∧
      ∀ n, d.get? n =
        let vs := valuesOf (hs.map fun h => (filedName lower h.1, h.2)) n
        match out.get? n with
        | some old => some (joinWith [0] (old :: vs))
        | none => if vs = [] then none else some (joinWith [0] vs)) := by
  induction hs with
  | nil =>
    intro out hwf
    refine ⟨by simp, fun _ => ⟨out, rfl, hwf, fun n => ?_⟩⟩
    simp only [List.map_nil, valuesOf, List.filter_nil]
    cases out.get? n <;> simp [joinWith]
  | cons h hs ih =>
    intro out hwf
    obtain ⟨name, val⟩ := h
    by_cases hn : lower name = []
    · refine ⟨fun _ => by simp [processHeaders, hn], fun h => absurd hn (h (name, val) (by simp))⟩
    · have hstep : processHeaders lower ((name, val) :: hs) out =
          processHeaders lower hs (out.set (filedName lower name)
            (addLine (out.get? (filedName lower name)) val)) := by
        rw [processHeaders]
        dsimp only
        rw [if_neg hn]; unfold filedName; split <;> rfl
      rw [hstep]
      obtain ⟨i1, i2⟩ := ih _ (hwf.set (filedName lower name)
            (addLine (out.get? (filedName lower name)) val))
      refine ⟨?_, ?_⟩
      · rintro ⟨h, hm, he⟩
        apply i1
        rcases List.mem_cons.1 hm with rfl | hm
        · exact absurd he hn
        · exact ⟨h, hm, he⟩
      · intro hall
        obtain ⟨d, d1, d2, d3⟩ := i2 (fun h hm => hall h (by simp [hm]))
        refine ⟨d, d1, d2, fun n => ?_⟩
        rw [d3 n, Dict.get?_set]
        simp only [List.map_cons, valuesOf, List.filter_cons, decide_eq_true_eq]
        by_cases hk : filedName lower name = n
        · rw [if_pos hk, if_pos hk, hk]
          cases hout : out.get? n with
          | none => simp [addLine]
          | some old =>
            simp only [List.map_cons, addLine]
            cases (((hs.map fun h => (filedName lower h.1, h.2)).filter fun h => decide (h.1 = n)).map
              (·.2)) with
            | nil => simp [joinWith]
            | cons q qs => simp [joinWith]
        · rw [if_neg hk, if_neg hk]; rfl

/-! ### streamifiers -/

theorem get?_push {β : Type} (d : Dict Str (List β)) (k : Str) (x : β) (n : Str) :
    (push d k x).get? n =
      if k = n then some ((d.get? k).getD [] ++ [x]) else d.get? n := by
  unfold push
  cases h : d.get? k with
  | none => simp [Dict.get?_set]
  | some l => simp [Dict.get?_set]

theorem groupOf_push (d : Dict Str (List (Dict Str Str × Str))) (k : Str) (x : Dict Str Str × Str) (n : Str) :
    groupOf (push d k x) n = groupOf d n ++ (if k = n then [x] else []) := by
  unfold groupOf
  rw [get?_push]
  by_cases hk : k = n
  · subst hk; cases d.get? k <;> simp
  · rw [if_neg hk, if_neg hk]; simp

theorem firstAppearance_step {ks l : List Str} (h : FirstAppearance ks l) (k : Str) :
    FirstAppearance (if k ∈ ks then ks else ks ++ [k]) (l ++ [k]) := by
  obtain ⟨h1, h2⟩ := h
  have h3 : ks.Pairwise fun a b => (l ++ [k]).idxOf a < (l ++ [k]).idxOf b := by
    refine List.Pairwise.imp_of_mem ?_ h2
    intro a b ha hb hab
    rwa [List.idxOf_append_of_mem ((h1 a).1 ha), List.idxOf_append_of_mem ((h1 b).1 hb)]
  split
  · rename_i hk
    refine ⟨fun x => ?_, h3⟩
    simp only [List.mem_append, List.mem_singleton, h1 x]
    exact ⟨Or.inl, fun h => h.elim id (fun e => e ▸ (h1 k).1 hk)⟩
  · rename_i hk
    refine ⟨fun x => by simp [h1 x], ?_⟩
    rw [List.pairwise_append]
    refine ⟨h3, by simp, ?_⟩
    intro a ha b hb
    simp only [List.mem_singleton] at hb
    subst hb
    have hbl : b ∉ l := fun hc => hk ((h1 b).2 hc)
    rw [List.idxOf_append_of_mem ((h1 a).1 ha), List.idxOf_append_of_notMem hbl]
    have := List.idxOf_lt_length_of_mem ((h1 a).1 ha)
    omega

theorem groupLoop_spec (key label : Str → Str) (ms : List Message) : ∀ (hosts : List Str) (g : Groups) (l : List Str),
    ms.map (fun m => m.1.get? b!":host") = hosts.map some → FirstAppearance g.keys l →
    ∃ g', groupLoop key label ms g = .ok g' ∧ FirstAppearance g'.keys (l ++ hosts.map key) ∧
      ∀ k, groupOf g'.reqs k = groupOf g.reqs k ++
          ((ms.zip hosts).filter fun p => key p.2 = k).map (fun p => (p.1.1, label p.2)) ∧
        groupOf g'.ress k = groupOf g.ress k ++
          ((ms.zip hosts).filter fun p => key p.2 = k).map (fun p => (p.1.2, label p.2)) := by
  induction ms with
  | nil =>
    intro hosts g l h hf
    cases hosts with
    | cons => simp at h
    | nil => exact ⟨g, rfl, by simpa using hf, fun k => by simp⟩
  | cons m ms ih =>
    intro hosts g l h hf
    obtain ⟨req, res⟩ := m
    cases hosts with
    | nil => simp at h
    | cons host hosts =>
      simp only [List.map_cons, List.cons.injEq] at h
      obtain ⟨g', h1, h2, h3⟩ := ih hosts
        { keys := if key host ∈ g.keys then g.keys else g.keys ++ [key host]
          reqs := push g.reqs (key host) (req, label host)
          ress := push g.ress (key host) (res, label host) } (l ++ [key host]) h.2
        (firstAppearance_step hf _)
      refine ⟨g', ?_, by simpa using h2, fun k => ?_⟩
      · rw [groupLoop, h.1]; exact h1
      · rw [(h3 k).1, (h3 k).2]
        simp only [groupOf_push, List.zip_cons_cons, List.filter_cons]
        by_cases hk : key host = k
        · simp [hk]
        · simp [hk]

theorem allOneLoop_spec (ms : List Message) : ∀ (hosts : List Str),
    ms.map (fun m => m.1.get? b!":host") = hosts.map some →
    allOneLoop ms = .ok ((ms.zip hosts).map (fun p => (p.1.1, p.2)), (ms.zip hosts).map (fun p => (p.1.2, p.2))) := by
  induction ms with
  | nil =>
    intro hosts h
    cases hosts with
    | cons => simp at h
    | nil => rfl
  | cons m ms ih =>
    intro hosts h
    obtain ⟨req, res⟩ := m
    cases hosts with
    | nil => simp at h
    | cons host hosts =>
      simp only [List.map_cons, List.cons.injEq] at h
      rw [allOneLoop, h.1, ih hosts h.2]; rfl

end Verif.Lib
