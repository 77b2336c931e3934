import Verif.Delta2.CellLemmas
import Verif.Delta2.SessionLemmas
/-
Property theorems for delta2's limit of bytes (C27).
-/
namespace Verif.Props
open Verif Verif.Delta2

/-- The states a codec can get into, as compressor or as decompressor, whatever operations arrive. -/
inductive Ran (cfg : Config) : Codec → Prop
  | new {s : Codec} : Codec.init cfg = .ok s → Ran cfg s
  | execute {s s' : Codec} {ord : List Int → List Int} {ops : List Op} {gid : Nat} {out : Dict Str Str} :
    Ran cfg s → execute cfg ord s ops gid = .ok (s', out) → Ran cfg s'
  | make {s s' : Codec} {o : Orders} {headers : Dict Str Str} {gid : Nat} {gs : Groups} :
    Ran cfg s → makeOperations cfg o s headers gid = .ok (s', gs) → Ran cfg s'

/-- The characters of the names in the ring. -/
def keyChars (s : Codec) : Nat := (s.storage.lru.ring.map fun e => e.kv.key.length).sum

/-- The characters of the values in the ring. -/
def valChars (s : Codec) : Nat := (s.storage.lru.ring.map fun e => e.kv.val.length).sum

theorem ran_cells {cfg : Config} {s : Codec} (h : Ran cfg s) : StoreCells cfg.refcntVals cfg.maxBytes s.storage := by
  induction h with
  | new h => exact init_cells h
  | execute _ e ih => exact execute_cells ih e
  | make _ e ih =>
    simp only [makeOperations, bind, Except.bind] at e
    split at e
    · simp at e
    · split at e
      · simp at e
      · split at e
        · simp at e
        · rename_i x hx
          simp only [pure, Except.pure, Except.ok.injEq, Prod.mk.injEq] at e
          obtain ⟨rfl, _⟩ := e
          exact execute_cells (by rw [findOrMake_storage]; exact ih) hx

theorem cells_counted {rv : Bool} {m : Int} {s : Codec} (h : StoreCells rv m s.storage) :
    s.storage.lru.byteSize = if rv then 0 else (valChars s : Int) := by
  rw [h.ring.size, weights, valChars, List.map_map]
  cases rv with
  | true =>
    rw [if_pos rfl]
    exact List.sum_eq_zero (by simp [weight])
  | false =>
    induction s.storage.lru.ring with
    | nil => rfl
    | cons e es ih =>
      simp only [List.map_cons, List.sum_cons, Function.comp_apply] at ih ⊢
      rw [ih]
      simp [weight]

/-- What `byte_size` counts: the characters of the values, or nothing at all with `refcnt_vals`; names are never
counted. -/
theorem C27_counted (cfg : Config) (s : Codec) (h : Ran cfg s) :
    s.storage.lru.byteSize = if cfg.refcntVals then 0 else (valChars s : Int) := cells_counted (ran_cells h)

/-- C27, as far as it is true.  Full claim: `keyChars s + valChars s ≤ max_byte_size`, with or without `refcnt_vals`.  Without
`refcnt_vals` the characters of the values alone are at most `max_byte_size` (0 if that is negative). -/
theorem C27_values_partial (cfg : Config) (hr : cfg.refcntVals = false) (s : Codec) (h : Ran cfg s) :
    (valChars s : Int) ≤ max cfg.maxBytes 0 := by
  have h1 := C27_counted cfg s h
  rw [hr, if_neg (by decide)] at h1
  rw [← h1]
  exact (ran_cells h).limit.2

/-- The default parameters. -/
def defaultConfig : Config := ⟨4096, 190, 255, .varint, false, false, false, false, true⟩

example : (Config.ofParams (fun _ => .error .value) []).toOption = some defaultConfig := by decide +kernel

/-- The orders in which the model lists things. -/
def listed : Orders := ⟨id, id, id, id, id, id⟩

/-- What a codec holds after one message. -/
def afterMessage (cfg : Config) (headers : Dict Str Str) : Option (Nat × Nat) :=
  match Codec.init cfg with
  | .error _ => none
  | .ok s =>
    match makeOperations cfg listed s headers 1 with
    | .error _ => none
    | .ok (s', _) => some (keyChars s', valChars s')

theorem afterMessage_ran {cfg : Config} {headers : Dict Str Str} {a b : Nat} (h : afterMessage cfg headers = some (a, b)) :
    ∃ s, Ran cfg s ∧ keyChars s = a ∧ valChars s = b := by
  unfold afterMessage at h
  split at h
  · simp at h
  · rename_i s hs
    split at h
    · simp at h
    · rename_i s' gs hm
      simp only [Option.some.injEq, Prod.mk.injEq] at h
      exact ⟨s', .make (.new hs) hm, h⟩

/-- C27 is false with the default parameters: one message with a long name. -/
theorem C27_false : ∃ s, Ran defaultConfig s ∧ (keyChars s + valChars s : Int) > defaultConfig.maxBytes := by
  have h : afterMessage defaultConfig [(List.replicate 5000 97, b!"1")] = some (5000, 1) := by decide +kernel
  obtain ⟨s, hs, h1, h2⟩ := afterMessage_ran h
  exact ⟨s, hs, by rw [h1, h2]; decide⟩

/-- With `refcnt_vals` there is no limit for the values either. -/
theorem C27_refcnt_false : ∃ s, Ran { defaultConfig with refcntVals := true, maxBytes := 16 } s ∧ (valChars s : Int) > 16 := by
  have h : afterMessage { defaultConfig with refcntVals := true, maxBytes := 16 } [(b!"x", List.replicate 50 97)] = some (1, 50) := by
    decide +kernel
  obtain ⟨s, hs, h1, h2⟩ := afterMessage_ran h
  exact ⟨s, hs, by rw [h2]; decide⟩

/-- Values do count without `refcnt_vals`: the same value is not stored. -/
example : afterMessage { defaultConfig with maxBytes := 16 } [(b!"x", List.replicate 50 97)] = some (0, 0) := by decide +kernel

/-- A ring with two entries that share a name. -/
example : afterMessage defaultConfig [(b!"cookie", b!"a=1; b=22")] = some (12, 7) := by decide +kernel

/-- Both parts of the claim are about states that exist. -/
example : ∃ s, Ran defaultConfig s ∧ keyChars s = 12 ∧ valChars s = 7 :=
  afterMessage_ran (headers := [(b!"cookie", b!"a=1; b=22")]) (by decide +kernel)

end Verif.Props
