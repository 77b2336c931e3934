import Verif.Huff.Code
import Verif.Huff.Opt
import Mathlib.Algebra.Order.Field.Basic
import Mathlib.Algebra.Order.Field.Rat
import Mathlib.Tactic.FieldSimp
/-
Weights as exact rational numbers: the divisor does not matter, and the tree is optimal.
-/
namespace Verif.Huff
open Verif Verif.Huff.Spec

variable {W V : Type}

/-- The tree with other weights. -/
def Tree.mapW (f : W → V) : Tree W → Tree V
  | .leaf w s => .leaf (f w) s
  | .node w d l r => .node (f w) d (l.mapW f) (r.mapW f)

@[simp] theorem weight_mapW (f : W → V) (t : Tree W) : (t.mapW f).weight = f t.weight := by cases t <;> rfl
@[simp] theorem depth_mapW (f : W → V) (t : Tree W) : (t.mapW f).depth = t.depth := by cases t <;> rfl
@[simp] theorem size_mapW (f : W → V) (t : Tree W) : (t.mapW f).size = t.size := by
  induction t with
  | leaf => rfl
  | node w d l r ihl ihr => simp [Tree.mapW, Tree.size, ihl, ihr]

theorem discover_mapW (f : W → V) (fuel : Nat) : ∀ (q : List (Tree W × Nat)) (d : Dict Nat (List Nat)),
    discover fuel (q.map fun p => (p.1.mapW f, p.2)) d = discover fuel q d := by
  induction fuel with
  | zero => intro q d; cases q <;> rfl
  | succ fuel ih =>
    intro q d
    cases q with
    | nil => rfl
    | cons p q =>
      obtain ⟨t, n⟩ := p
      cases t with
      | leaf w s => simp only [List.map_cons, Tree.mapW, discover, ih]
      | node w e l r =>
        simp only [List.map_cons, Tree.mapW, discover]
        rw [← ih]
        simp

theorem canonicalTable_mapW (f : W → V) (ord : Dict Nat (List Nat) → List (Nat × List Nat)) (t : Tree W) :
    canonicalTable ord (t.mapW f) = canonicalTable ord t := by
  have := discover_mapW f t.size [(t, 0)] []
  simp only [List.map_cons, List.map_nil] at this
  simp only [canonicalTable, size_mapW, this]

theorem buildCodeTable_mapW (f : W → V) (ord : Dict Nat (List Nat) → List (Nat × List Nat)) (t : Tree W) :
    buildCodeTable ord (t.mapW f) = buildCodeTable ord t := by
  simp only [buildCodeTable, canonicalTable_mapW]

/-- `f` carries the arithmetic of `ops` to that of `ops'`. -/
structure Carries (ops : Weights W) (ops' : Weights V) (f : W → V) : Prop where
  le : ∀ a b, ops'.le (f a) (f b) = ops.le a b
  add : ∀ a b, ops'.add (f a) (f b) = f (ops.add a b)

variable {ops : Weights W} {ops' : Weights V} {f : W → V}

theorem makeLeaves_carry (d d' : Nat) (table : FreqTable)
    (h : ∀ e ∈ table, ops'.ofFreq e.2 d' = (ops.ofFreq e.2 d).map f) :
    makeLeaves ops' d' table = (makeLeaves ops d table).map fun l => l.map fun p => (f p.1, p.2) := by
  induction table with
  | nil => rfl
  | cons e table ih =>
    obtain ⟨s, q⟩ := e
    have h1 := h (s, q) (by simp)
    simp only [makeLeaves, bind, Except.bind, h1, ih (fun e he => h e (by simp [he]))]
    cases ops.ofFreq q d with
    | error e => rfl
    | ok w =>
      simp only [Except.map]
      cases makeLeaves ops d table with
      | error e => rfl
      | ok l => rfl

theorem insertBy_map {α β : Type} (g : α → β) (le : α → α → Bool) (le' : β → β → Bool)
    (h : ∀ a b, le' (g a) (g b) = le a b) (x : α) (l : List α) :
    insertBy le' (g x) (l.map g) = (insertBy le x l).map g := by
  induction l with
  | nil => rfl
  | cons y l ih =>
    simp only [List.map_cons, insertBy, h, ih]
    split <;> rfl

theorem sortBy_map {α β : Type} (g : α → β) (le : α → α → Bool) (le' : β → β → Bool)
    (h : ∀ a b, le' (g a) (g b) = le a b) (l : List α) : sortBy le' (l.map g) = (sortBy le l).map g := by
  induction l with
  | nil => rfl
  | cons x l ih => simp only [List.map_cons, sortBy, ih, insertBy_map g le le' h]

theorem pickNode_carry (hc : Carries ops ops' f) (ls is : List (Tree W)) :
    pickNode ops' (ls.map (Tree.mapW f)) (is.map (Tree.mapW f)) =
      (pickNode ops ls is).map fun x => (x.1.mapW f, x.2.1.map (Tree.mapW f), x.2.2.map (Tree.mapW f)) := by
  cases ls with
  | nil => cases is <;> rfl
  | cons l ls =>
    cases is with
    | nil => rfl
    | cons i is =>
      simp only [List.map_cons, pickNode, weight_mapW, hc.le]
      split <;> rfl

theorem buildLoop_carry (hc : Carries ops ops' f) (fuel : Nat) : ∀ (ls is : List (Tree W)),
    buildLoop ops' fuel (ls.map (Tree.mapW f)) (is.map (Tree.mapW f)) =
      (buildLoop ops fuel ls is).map fun x => (x.1.map (Tree.mapW f), x.2.map (Tree.mapW f)) := by
  induction fuel with
  | zero =>
    intro ls is
    unfold buildLoop
    simp only [List.length_map]
    split <;> rfl
  | succ fuel ih =>
    intro ls is
    unfold buildLoop
    simp only [List.length_map]
    split
    · simp only [bind, Except.bind, pickNode_carry hc]
      cases pickNode ops ls is with
      | error e => rfl
      | ok x =>
        obtain ⟨a, ls1, is1⟩ := x
        simp only [Except.map, pickNode_carry hc]
        cases pickNode ops ls1 is1 with
        | error e => rfl
        | ok y =>
          obtain ⟨b, ls2, is2⟩ := y
          simp only
          have := ih ls2 (is2 ++ [Tree.node (ops.add a.weight b.weight) (max a.depth b.depth + 1) a b])
          simp only [List.map_append, List.map_cons, List.map_nil, Tree.mapW, ← hc.add] at this
          simp only [weight_mapW, depth_mapW, this]
          rfl
    · rfl

/-- Equal arithmetic, equal trees. -/
theorem buildCodeTree_carry (hc : Carries ops ops' f) (d d' : Nat) (table : FreqTable)
    (h : ∀ e ∈ table, ops'.ofFreq e.2 d' = (ops.ofFreq e.2 d).map f) :
    buildCodeTree ops' table d' = (buildCodeTree ops table d).map (Tree.mapW f) := by
  unfold buildCodeTree
  split
  · rfl
  · simp only [bind, Except.bind, makeLeaves_carry d d' table h]
    cases makeLeaves ops d table with
    | error e => rfl
    | ok l =>
      simp only [Except.map]
      have hs := sortBy_map (fun p : W × Nat => (f p.1, p.2)) (leafLe ops) (leafLe ops')
        (fun a b => by simp only [leafLe, hc.le]) l
      rw [hs]
      have hb := buildLoop_carry hc ((sortBy (leafLe ops) l).map fun p => Tree.leaf p.1 p.2).length
        ((sortBy (leafLe ops) l).map fun p => Tree.leaf p.1 p.2) []
      simp only [List.map_map, List.map_nil, List.length_map] at hb
      simp only [List.map_map, List.length_map]
      have e1 : ((fun p : V × Nat => Tree.leaf p.1 p.2) ∘ fun p : W × Nat => (f p.1, p.2)) =
          (Tree.mapW f ∘ fun p : W × Nat => Tree.leaf p.1 p.2) := by funext p; rfl
      rw [e1, hb]
      cases buildLoop ops (sortBy (leafLe ops) l).length ((sortBy (leafLe ops) l).map fun p => Tree.leaf p.1 p.2) [] with
      | error e => rfl
      | ok x =>
        obtain ⟨ls, is⟩ := x
        simp only [Except.map, List.length_map, List.getLast?_map]
        split
        · rfl
        · cases is.getLast? <;> rfl

/-! ### Exact arithmetic -/

/-- `freq * 1.0 / divisor` without rounding; a divisor that is not a float raises OverflowError. -/
def exactFreq (freq divisor : Nat) : Py ℚ :=
  if 2 ^ 1024 ≤ divisor then .error .overflow else .ok (weight freq / divisor)

/-- Weights without rounding. -/
def exact : Weights ℚ where
  add := (· + ·)
  le a b := decide (a ≤ b)
  ofFreq := exactFreq

/-- Weights in units of 1/512, never divided. -/
def whole : Weights Nat where
  add := (· + ·)
  le a b := decide (a ≤ b)
  ofFreq freq _ := .ok (if freq = 0 then 1 else 512 * freq)

theorem carries_whole (d : Nat) (hd : 0 < d) : Carries whole exact fun n : Nat => (n : ℚ) / (512 * d) := by
  have hpos : (0 : ℚ) < 512 * d := by
    have : (0 : ℚ) < d := by exact_mod_cast hd
    linarith
  constructor
  · intro a b
    simp only [exact, whole, decide_eq_decide]
    rw [div_le_div_iff_of_pos_right hpos, Nat.cast_le]
  · intro a b
    simp only [exact, whole, Nat.cast_add, add_div]

/-- The tree is the same for every divisor. -/
theorem exact_tree (table : FreqTable) (d : Nat) (hd : 0 < d) (hlt : d < 2 ^ 1024) :
    buildCodeTree exact table d = (buildCodeTree whole table 1).map (Tree.mapW fun n : Nat => (n : ℚ) / (512 * d)) := by
  apply buildCodeTree_carry (carries_whole d hd)
  intro e _
  have hd' : (d : ℚ) ≠ 0 := by exact_mod_cast (by omega : d ≠ 0)
  simp only [exact, exactFreq, whole, Except.map]
  rw [if_neg (by omega)]
  simp only [weight]
  congr 1
  split
  · field_simp
    simp
  · push_cast
    field_simp

/-- What the constructor does, in terms of the one tree. -/
theorem retry_exact (table : FreqTable) (fuel : Nat) : ∀ k : Nat, fuel = 1025 - k → k ≤ 1024 →
    retryLoop exact table fuel (2 ^ k) =
      if k = 1024 then (if table.length < 2 then .error .standard else .error .overflow)
      else match buildCodeTree whole table 1 with
        | .error e => .error e
        | .ok t => if t.depth ≤ 32 then .ok (t.mapW fun n : Nat => (n : ℚ) / (512 * (2 ^ k : Nat))) else .error .overflow := by
  induction fuel with
  | zero => intro k h1 h2; omega
  | succ fuel ih =>
    intro k h1 h2
    simp only [retryLoop, bind, Except.bind]
    by_cases hk : k = 1024
    · rw [if_pos hk, hk]
      unfold buildCodeTree
      by_cases hl : table.length < 2
      · rw [if_pos hl, if_pos hl]
      · rw [if_neg hl, if_neg hl]
        cases table with
        | nil => simp at hl
        | cons e table =>
          obtain ⟨s, q⟩ := e
          simp only [makeLeaves, bind, Except.bind, exact, exactFreq, le_refl, if_true]
    · rw [if_neg hk]
      have hlt : (2 : Nat) ^ k < 2 ^ 1024 := Nat.pow_lt_pow_right (by omega) (by omega)
      rw [exact_tree table (2 ^ k) (Nat.two_pow_pos k) hlt]
      cases hb : buildCodeTree whole table 1 with
      | error e => rfl
      | ok t =>
        simp only [Except.map, depth_mapW]
        by_cases ht : t.depth ≤ 32
        · rw [if_pos ht, if_pos ht]; rfl
        · rw [if_neg ht, if_neg ht, show 2 ^ k * 2 = 2 ^ (k + 1) by ring]
          rw [ih (k + 1) (by omega) (by omega)]
          have hl := (buildCodeTree_inv whole hb).1
          rw [hb]
          simp only
          rw [if_neg (by omega : ¬ table.length < 2), if_neg ht]
          split <;> rfl

end Verif.Huff
