import Verif.HeaderDiff.Any
import Verif.HeaderDiff.Total
/-
The tables of headerdiff grow with every new name.
-/
namespace Verif.HeaderDiff
open Verif

theorem commonPrefix_nil (t : Str) : commonPrefix [] t = 0 := by cases t <;> rfl

theorem shared_nil (t : DeltaType) (iv : Str) : sharedPrefix t [] iv = 0 := by
  cases t with
  | full => exact commonPrefix_nil iv
  | bound l =>
    show limitedLoop [] l (commonPrefix [] iv) = 0
    rw [commonPrefix_nil]
    rfl
  | max n => exact commonPrefix_nil iv

theorem bestLoop_nil (t : DeltaType) (name : Str) (l : List (Str × Entry)) : ∀ ref, (bestLoop t name [] l 0 ref).1 = 0 := by
  induction l with
  | nil => intro ref; rfl
  | cons p l ih =>
    intro ref
    obtain ⟨k, e⟩ := p
    unfold bestLoop
    simp only [shared_nil, ge_iff_le, Nat.le_refl, if_true]
    repeat' split
    all_goals exact ih _

/-- A header without a value is always added. -/
theorem choose_nil (order : Order) (cfg : Cfg) (st : Enc) (name : Str) (hp : name ≠ b!":path") (hsz : st.size < cfg.maxSize) :
    chooseNew order cfg st name [] = { indexing := .incremental } := by
  unfold chooseNew
  have h1 : (!cfg.deltaUsage && name == b!":path") = false := by
    have : (name == b!":path") = false := by simpa using hp
    rw [this, Bool.and_false]
  have h2 : (if cfg.deltaUsage then bestLoop cfg.deltaType name [] (order st.ticks st.table) 0 none else (0, none)).1 = 0 := by
    split
    · exact bestLoop_nil _ _ _ _
    · rfl
  rw [h1]
  simp only [Bool.false_eq_true, if_false]
  generalize (if cfg.deltaUsage then bestLoop cfg.deltaType name [] (order st.ticks st.table) 0 none else (0, none)) = q at h2
  obtain ⟨best, ref⟩ := q
  simp only at h2
  subst h2
  simp [hsz]

theorem dict_set_new {α : Type} [DecidableEq α] {β : Type} (d : Dict α β) (k : α) (v : β) (h : Dict.get? d k = none) :
    Dict.set d k v = d ++ [(k, v)] := by
  induction d with
  | nil => rfl
  | cons p d ih =>
    obtain ⟨k', v'⟩ := p
    rw [Dict.get?_cons] at h
    by_cases hk : k' = k
    · simp [hk] at h
    · rw [if_neg hk] at h
      simp only [Dict.set, if_neg hk, ih h, List.cons_append]

/-- One header with a new name and no value. -/
theorem encodeHeader_new (order : Order) (cfg : Cfg) (hno : cfg.huffman = none) (st : Enc) (name : Str) (hp : name ≠ b!":path")
    (hsz : st.size < cfg.maxSize) (ht : Dict.get? st.table name = none) (hn : Dict.get? st.names name = none) (hl : name.length < 2 ^ 21) :
    ∃ st' out, encodeHeader order cfg st (name, []) = (st', .ok out) ∧ out.length ≤ name.length + 5 ∧ st'.size = st.size ∧
      st'.table = st.table ++ [(name, { name, value := [], index := st.table.length })] ∧
      st'.names = st.names ++ [(name, st.names.length)] := by
  obtain ⟨x, hx, _⟩ := integer_zero name.length
  have hxl : x.length ≤ 3 := by
    simpa using writeInteger_length (Or.inl rfl) hl (hx 0)
  have hz : writeInteger 0 0 0 = .ok [0] := rfl
  have h4 : writeInteger 0x20 4 0 = .ok [0x20] := rfl
  refine ⟨⟨st.table ++ [(name, { name, value := [], index := st.table.length })], st.size,
    st.names ++ [(name, st.names.length)], st.ticks + 1⟩, [0x20] ++ (x ++ name) ++ [0], ?_, ?_, rfl, rfl, rfl⟩
  · unfold encodeHeader determine
    simp only [List.append_nil, ht, choose_nil order cfg st name hp hsz]
    simp only [reduceCtorEq, if_false, writeNew, applyIndexing, List.append_nil, List.length_nil, Int.ofNat_zero, Int.add_zero, ne_eq,
      not_false_eq_true, if_true]
    simp only [dict_set_new _ _ _ ht]
    have hk : (cfg.deltaUsage && Kind.literal == Kind.delta) = false := by
      have : (Kind.literal == Kind.delta) = false := rfl
      rw [this, Bool.and_false]
    simp only [hk, Bool.false_eq_true, if_false, writeLiteral, writeName, hn, writeString, hno, h4, hx, hz, bind, Except.bind, reduceCtorEq,
      dict_set_new _ _ _ hn, List.length_nil, List.append_nil]
  · simp only [List.length_append, List.length_singleton]
    omega

theorem dict_get_none {α : Type} [DecidableEq α] {β : Type} {d : Dict α β} {k : α} (h : k ∉ List.map (·.1) d) : Dict.get? d k = none := by
  induction d with
  | nil => rfl
  | cons p d ih =>
    rw [List.map_cons, List.mem_cons, not_or] at h
    rw [Dict.get?_cons, if_neg (Ne.symm h.1)]
    exact ih h.2

/-- Messages of one header with a new name and no value. -/
theorem encodeAll_new (order : Order) (cfg : Cfg) (hno : cfg.huffman = none) (names : List Str) :
    ∀ (st : Enc), 0 < cfg.maxSize → st.size = 0 → names.Nodup →
    (∀ n ∈ names, n ≠ b!":path" ∧ n.length ≤ 65000 ∧ n ∉ st.table.map (·.1) ∧ n ∉ st.names.map (·.1)) →
    ∃ st' fs, encodeAll order cfg st (names.map fun n => [(n, [])]) = (st', .ok fs) ∧ st'.size = 0 ∧
      st'.table.map (·.1) = st.table.map (·.1) ++ names ∧ st'.names.map (·.1) = st.names.map (·.1) ++ names := by
  induction names with
  | nil => intro st _ hs _ _; exact ⟨st, [], rfl, hs, by simp, by simp⟩
  | cons n names ih =>
    intro st hmax hs hnd hall
    obtain ⟨hp, hl, ht, hn⟩ := hall n (by simp)
    have hgt : (grow st).table.map (·.1) = st.table.map (·.1) := by simp [grow]
    obtain ⟨st1, out, h1, h2, h3, h4, h5⟩ := encodeHeader_new order cfg hno (grow st) n hp (by rw [show (grow st).size = st.size from rfl]; omega)
      (dict_get_none (by rw [hgt]; exact ht)) (dict_get_none hn) (by omega)
    have hfr : ∃ f, frame ([1] ++ out) = .ok f := by
      have hlen : ([1] ++ out).length < 65536 := by simp only [List.length_append, List.length_singleton]; omega
      simp only [frame, packH, packB, packL, if_pos hlen, bind, Except.bind, Nat.zero_lt_succ, if_true]
      exact ⟨_, rfl⟩
    obtain ⟨f, hf⟩ := hfr
    have he : encodeHeaders order cfg st [(n, [])] = (st1, .ok f) := by
      simp only [encodeHeaders, packB, List.length_cons, List.length_nil, show (0 + 1 : Nat) < 256 by omega, if_true, encodeLoop, h1,
        List.append_nil, Nat.zero_add, hf]
    have ht1 : st1.table.map (·.1) = st.table.map (·.1) ++ [n] := by rw [h4, List.map_append, hgt]; rfl
    have hn1 : st1.names.map (·.1) = st.names.map (·.1) ++ [n] := by rw [h5, List.map_append]; rfl
    obtain ⟨hnn, hnd'⟩ := List.nodup_cons.1 hnd
    obtain ⟨st2, fs, e1, e2, e3, e4⟩ := ih st1 hmax (by rw [h3]; exact hs) hnd' (fun m hm => by
      obtain ⟨a, b, c, e⟩ := hall m (by simp [hm])
      have hne : m ≠ n := fun hc => hnn (hc ▸ hm)
      refine ⟨a, b, ?_, ?_⟩
      · rw [ht1, List.mem_append, List.mem_singleton]; exact fun hc => hc.elim c hne
      · rw [hn1, List.mem_append, List.mem_singleton]; exact fun hc => hc.elim e hne)
    refine ⟨st2, f :: fs, ?_, e2, ?_, ?_⟩
    · simp only [List.map_cons, encodeAll, he, e1]
    · rw [e3, ht1, List.append_assoc]; rfl
    · rw [e4, hn1, List.append_assoc]; rfl

end Verif.HeaderDiff
