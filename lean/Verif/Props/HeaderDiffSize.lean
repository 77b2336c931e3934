import Mathlib.Data.Nat.Log
import Verif.HeaderDiff.Size
import Verif.Props.HeaderDiffRepeat
/-
The size of headerdiff frames (C143).
-/
namespace Verif.Props
open Verif Verif.HeaderDiff Verif.Bits.Spec

/-! ### C143 -/

/-- The bytes of a number that has seven bits in each byte. -/
def sevens (v : Nat) : Nat := Nat.log 128 v + 1

/-- The bytes of a text: with a coder, the bits of its codes and of the code that ends it, in whole bytes; else its length and itself. -/
def textBytes (cfg : Cfg) (s : Str) : Nat :=
  match cfg.huffman with
  | some h => (((s ++ [256]).map fun c => ((Dict.get? h.encoder c).getD (0, 0)).2).sum + 7) / 8
  | none => sevens s.length + s.length

/-- The most a header costs when there are at most `n` entries and names: a byte and two numbers, or its name in place of a number, and
its value.  With a coder, also the length of a prefix of the value. -/
def headerCost (cfg : Cfg) (n : Nat) (h : Hdr) : Nat :=
  1 + sevens n + max (sevens n) (textBytes cfg h.1) + textBytes cfg h.2 + if cfg.huffman = none then 0 else sevens h.2.length

theorem sevens_eq (v : Nat) : digits v = sevens v := by
  induction v using Nat.strongRecOn with
  | _ v ih =>
    unfold sevens
    rw [digits]
    by_cases h : v < 128
    · rw [if_pos h, Nat.log_of_lt h]
    · rw [if_neg h, ih (v / 128) (by omega), sevens, Nat.log_of_one_lt_of_le (by decide) (by omega : 128 ≤ v)]
      omega

theorem textBytes_eq (cfg : Cfg) (s : Str) : textSize cfg s = textBytes cfg s := by
  unfold textSize textBytes
  cases cfg.huffman with
  | none => simp only [sevens_eq]
  | some h =>
    have : ∀ t : List Nat, (textBits h t).length = (t.map fun c => ((Dict.get? h.encoder c).getD (0, 0)).2).sum := by
      intro t
      induction t with
      | nil => rfl
      | cons c t ih =>
        have hc : textBits h (c :: t) = textBits h [c] ++ textBits h t := by simp [textBits]
        rw [hc, List.length_append, ih, List.map_cons, List.sum_cons]
        congr 1
        unfold textBits
        simp only [List.flatMap_cons, List.flatMap_nil, List.append_nil]
        cases hg : Dict.get? h.encoder c with
        | none => rfl
        | some q =>
          obtain ⟨v, l⟩ := q
          exact Bits.natBits_length _ _
    simp only [this]

theorem headerCost_eq (cfg : Cfg) (n : Nat) (h : Hdr) : hdrMost cfg n h = headerCost cfg n h := by
  unfold hdrMost headerCost deltaSize
  simp only [textBytes_eq, sevens_eq]

theorem below_init (cfg : Cfg) : Below 0 39 (Enc.init cfg) := by
  refine ⟨(by intro p hp; cases hp), Nat.le_refl _, ?_, ?_⟩
  · show ∀ p ∈ numberNames (registered cfg.isRequest) 0 [], p.2 < 39
    cases cfg.isRequest <;> decide +kernel
  · show (numberNames (registered cfg.isRequest) 0 []).length ≤ 39
    cases cfg.isRequest <;> decide +kernel

theorem session_sizes {cfg : Cfg} {order : Order} (ho : ∀ n t, (order n t).Perm t) (ms : List (List Hdr)) :
    ∀ {st st' : Enc} {n m N : Nat} {fs : List (List Nat)}, Below n m st → n + ms.flatten.length ≤ N → m + ms.flatten.length ≤ N →
    encodeAll order cfg st ms = (st', .ok fs) → Below (n + ms.flatten.length) (m + ms.flatten.length) st' ∧
      List.Forall₂ (fun m f => 9 + m.length ≤ f.length ∧ f.length ≤ 9 + (m.map (headerCost cfg N)).sum) ms fs := by
  induction ms with
  | nil => intro st st' n m N fs hb _ _ he; cases he; exact ⟨hb, .nil⟩
  | cons x ms ih =>
    intro st st' n m N fs hb hn hm he
    simp only [List.flatten_cons, List.length_append] at hn hm
    unfold encodeAll at he
    split at he
    · cases he
    · rename_i st1 f hf
      split at he
      · cases he
      · rename_i st2 fs' hfs
        cases he
        obtain ⟨a1, a2, a3⟩ := encodeHeaders_size ho hb (N := N) (by omega) (by omega) hf
        obtain ⟨b1, b2⟩ := ih a3 (N := N) (by omega) (by omega) hfs
        have he : hdrMost cfg N = headerCost cfg N := funext (headerCost_eq cfg N)
        rw [he] at a2
        refine ⟨?_, .cons ⟨a1, a2⟩ b2⟩
        simp only [List.flatten_cons, List.length_append, ← Nat.add_assoc]
        exact b1

/-- C143, for every codec and every order of its table: in a session with at most `n - 39` headers in all, every frame has at least 9 bytes
and one for each header, and at most 9 bytes and the cost of each header. -/
theorem C143_frames (cfg : Cfg) (order : Order) (ho : ∀ n t, (order n t).Perm t) (ms : List (List Hdr)) (st : Enc) (fs : List (List Nat))
    (he : encodeAll order cfg (Enc.init cfg) ms = (st, .ok fs)) (n : Nat) (hn : 39 + ms.flatten.length ≤ n) :
    List.Forall₂ (fun m f => 9 + m.length ≤ f.length ∧ f.length ≤ 9 + (m.map (headerCost cfg n)).sum) ms fs :=
  (session_sizes ho ms (below_init cfg) (N := n) (by omega) (by omega) he).2

/-- C143, without a coder: while no more than 16344 headers were sent, and these are below 16384 bytes, a frame is at most 9 bytes, and 7 for
each header, longer than its headers. -/
theorem C143_overhead (cfg : Cfg) (hno : cfg.huffman = none) (order : Order) (ho : ∀ n t, (order n t).Perm t) (ms : List (List Hdr))
    (st : Enc) (fs : List (List Nat)) (he : encodeAll order cfg (Enc.init cfg) ms = (st, .ok fs)) (hn : ms.flatten.length ≤ 16344)
    (hs : ∀ m ∈ ms, ∀ h ∈ m, h.1.length < 16384 ∧ h.2.length < 16384) :
    List.Forall₂ (fun m f => f.length ≤ 9 + (m.map fun h => h.1.length + h.2.length + 7).sum) ms fs := by
  have h0 := C143_frames cfg order ho ms st fs he 16383 (by omega)
  have h7 : ∀ v, v < 16384 → sevens v ≤ 2 := by
    intro v hv
    unfold sevens
    have := Nat.log_mono_right (b := 128) (show v ≤ 16383 by omega)
    have h1 : Nat.log 128 16383 = 1 := Nat.log_eq_one_iff'.2 ⟨by decide, by decide⟩
    omega
  have : ∀ m : List Hdr, (∀ h ∈ m, h.1.length < 16384 ∧ h.2.length < 16384) →
      (m.map (headerCost cfg 16383)).sum ≤ (m.map fun h => h.1.length + h.2.length + 7).sum := by
    intro m
    induction m with
    | nil => intro _; exact Nat.le_refl _
    | cons h m ih =>
      intro hm
      obtain ⟨a, b⟩ := hm h (by simp)
      have hi := ih fun g hg => hm g (by simp [hg])
      have : headerCost cfg 16383 h ≤ h.1.length + h.2.length + 7 := by
        unfold headerCost textBytes
        rw [hno]
        simp only [if_true]
        have := h7 _ a
        have := h7 _ b
        have := h7 16383 (by decide)
        omega
      simp only [List.map_cons, List.sum_cons]
      omega
  clear he hn
  induction h0 with
  | nil => exact .nil
  | cons hx _ ih => 
    refine .cons (Nat.le_trans hx.2 (Nat.add_le_add_left (this _ (hs _ (by simp))) _)) (ih fun m hm => hs m (by simp [hm]))

/-- Two messages: 14 and 13 bytes, and the bound of `C143_frames` is 15 for both. -/
theorem size_run : ∃ st, encodeAll (fun _ t => t) smallRequests (Enc.init smallRequests) [[(b!"k", b!"v")], [(b!"k", b!"w")]] =
    (st, .ok [[0, 6, 0, 0, 0, 0, 0, 0, 1, 32, 1, 107, 1, 118], [0, 5, 0, 0, 0, 0, 0, 0, 1, 47, 25, 1, 119]]) := ⟨_, rfl⟩

example : 9 + ([(b!"k", b!"v")].map (headerCost smallRequests 41)).sum = 15 ∧ 9 + ([(b!"k", b!"w")].map (headerCost smallRequests 41)).sum = 15 := by
  constructor <;> norm_num [headerCost, textBytes, sevens, smallRequests, Nat.log_of_lt]

/-- The hypotheses of both theorems hold of these messages. -/
example : ∃ st fs, encodeAll (fun _ t => t) smallRequests (Enc.init smallRequests) [[(b!"k", b!"v")], [(b!"k", b!"w")]] = (st, .ok fs) ∧
    (∀ (n : Nat) t, ((fun _ t => t : Order) n t).Perm t) ∧ smallRequests.huffman = none ∧ List.Forall₂ (fun m f => f.length ≤ 9 +
      (m.map fun h => h.1.length + h.2.length + 7).sum) [[(b!"k", b!"v")], [(b!"k", b!"w")]] fs := by
  obtain ⟨st, h⟩ := size_run
  exact ⟨st, _, h, fun _ _ => List.Perm.refl _, rfl, C143_overhead smallRequests rfl (fun _ t => t) (fun _ _ => List.Perm.refl _) _ _ _ h
    (by decide) (by decide)⟩

/-- With a coder of three symbols, "v", "w" and the end, where "w" has one bit: the value takes one byte, and so does the name. -/
def threeSyms : Cfg :=
  { smallRequests with huffman := some { encoder := [(119, 0, 1), (118, 2, 2), (256, 3, 2)], root := .inner 0 (.leaf 0 119) (.inner 0 (.leaf 0 118) (.leaf 0 256)) } }

example : ((encodeAll (fun _ t => t) threeSyms (Enc.init threeSyms) [[(b!"w", b!"wv")]]).2 = .ok [[0, 4, 0, 0, 0, 0, 0, 0, 1, 32, 96, 88]]) ∧
    textBytes threeSyms b!"wv" = 1 := by
  exact ⟨rfl, rfl⟩

end Verif.Props
