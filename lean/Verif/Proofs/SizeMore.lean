import Verif.Proofs.SizeText
import Verif.Model.Marshal

/-! # Deep nesting and shared pointers -/

namespace Jsonutils
open Lenient

/-- `n` arrays inside each other. -/
def nestJ : Nat → J
  | 0 => .arr []
  | n + 1 => .arr [nestJ n]

theorem nestJ_depth (n : Nat) : (nestJ n).depth = n + 1 := by
  induction n with
  | zero => rfl
  | succ n ih => simp [nestJ, J.depth, J.depths, ih]; omega

theorem nestJ_pretty (n L : Nat) : ((nestJ n).pretty L).length = 2 * (n + 1) * (n + 1) + 4 * L * n + 2 * L := by
  induction n generalizing L with
  | zero => simp [nestJ, J.pretty, indent_len]; omega
  | succ n ih =>
    simp only [nestJ, J.pretty, J.prettyArr, List.length_append, List.length_cons, List.length_nil, indent_len, ih, if_true]
    simp only [Nat.mul_add, Nat.add_mul, Nat.mul_one, Nat.mul_assoc]
    omega

/-- The text `[[[…]]]`. -/
theorem nestJ_value (n : Nat) (r : Bytes) : Value (List.replicate (n + 1) 91 ++ (List.replicate (n + 1) 93 ++ r)) (nestJ n) [] r := by
  have hb : Blanks [] := by intro c hc; cases hc
  induction n generalizing r with
  | zero => exact .array (.close (w := []) hb)
  | succ n ih =>
    have h := ih (93 :: r)
    have e : List.replicate (n + 1) (93 : UInt8) ++ 93 :: r = List.replicate (n + 2) 93 ++ r := by
      rw [List.replicate_succ' (n := n + 1)]; simp
    rw [e] at h
    exact .array (.last (w := []) (w' := []) hb h hb)

/-- A chain of `n` two-element slices, each holding the pointer to the next one twice; an empty slice at the end. -/
def ladder : Nat → Nat → List GV
  | _, 0 => [.seq []]
  | a, n + 1 => .seq [.ptr (a + 1), .ptr (a + 1)] :: ladder (a + 1) n

theorem ladder_length (a n : Nat) : (ladder a n).length = n + 1 := by
  induction n generalizing a with
  | zero => rfl
  | succ n ih => simp [ladder, ih]

theorem ladder_get (a n i : Nat) (hi : i ≤ n) : (ladder a n)[i]? = some (if i < n then .seq [.ptr (a + i + 1), .ptr (a + i + 1)] else .seq []) := by
  induction n generalizing a i with
  | zero =>
    have : i = 0 := by omega
    subst this; rfl
  | succ n ih =>
    cases i with
    | zero => simp [ladder]
    | succ i =>
      simp only [ladder, List.getElem?_cons_succ]
      rw [ih (a + 1) i (by omega)]
      have e : a + 1 + i + 1 = a + (i + 1) + 1 := by omega
      rw [e]
      by_cases h : i < n
      · rw [if_pos h, if_pos (by omega)]
      · rw [if_neg h, if_neg (by omega)]

/-- The document made of the chain. -/
def ladderJ : Nat → MJ
  | 0 => .arr []
  | n + 1 => .arr [ladderJ n, ladderJ n]

theorem ladderJ_mark (n id : Nat) : (ladderJ n).mark id = ladderJ n := by cases n <;> rfl

theorem ladderJ_nodes (n : Nat) (live : Nat → Bool) (pick : List Nat → Nat) : ((ladderJ n).finish live pick).nodes + 1 = 2 ^ (n + 1) := by
  induction n with
  | zero => rfl
  | succ n ih =>
    simp only [ladderJ, MJ.finish, MJ.finishs, J.nodes, J.nodess]
    rw [Nat.pow_succ]; omega

theorem traceFind_clear {a : Nat} {t : List TEntry} (h : ∀ e ∈ t, e.inf ≠ a) : traceFind a none t = (none, t) := by
  induction t with
  | nil => rfl
  | cons e t ih =>
    have h1 := h e (by simp)
    simp only [traceFind, if_neg h1, ih fun e' he => h e' (by simp [he])]
    rfl

theorem tracePop_snoc (t : List TEntry) (id a : Nat) : tracePop (t ++ [⟨id, a, 1⟩]) = t := by
  unfold tracePop; simp

theorem ladder_run (ord : SMap Bytes → List (Bytes × Bytes)) (oe : Bool) (h : List GV) (n a : Nat) (hcell : ∀ i ≤ n, h[a + i]? = (ladder a n)[i]?)
    (s : MSess) (hs : ∀ e ∈ s.trace, e.inf < a) (k : Nat) :
    ∃ i, gmar ord oe h (n + 1 + k) (.ptr a) s none = some (⟨i, s.trace⟩, some (ladderJ n)) := by
  induction n generalizing a s k with
  | zero =>
    have hc : h[a]? = some (.seq []) := hcell 0 (by omega)
    refine ⟨s.nodeIndex + 1, ?_⟩
    have e : 0 + 1 + k = k + 1 := by omega
    rw [e]
    simp only [gmar, GV.mar, marshalPtr, traceFind_clear fun e he => Nat.ne_of_lt (hs e he), hc]
    cases k <;> simp [gmar, GV.mar, GV.mars, optEmpty, optForce, forceStr, tracePop_snoc, ladderJ, MJ.mark]
  | succ n ih =>
    have hc : h[a]? = some (.seq [.ptr (a + 1), .ptr (a + 1)]) := hcell 0 (by omega)
    have hcell' : ∀ i ≤ n, h[a + 1 + i]? = (ladder (a + 1) n)[i]? := by
      intro i hi
      have := hcell (i + 1) (by omega)
      rw [show a + (i + 1) = a + 1 + i by omega] at this
      rw [this]; rfl
    have e : n + 1 + 1 + k = (n + 1 + k) + 1 := by omega
    rw [e]
    have hs1 : ∀ j, ∀ e ∈ (⟨j, s.trace ++ [⟨s.nodeIndex + 1, a, 1⟩]⟩ : MSess).trace, e.inf < a + 1 := by
      intro j e he
      simp only [List.mem_append, List.mem_singleton] at he
      rcases he with he | he
      · exact Nat.lt_succ_of_lt (hs e he)
      · subst he; exact Nat.lt_succ_self _
    obtain ⟨i1, h1⟩ := ih (a + 1) hcell' ⟨s.nodeIndex + 1, s.trace ++ [⟨s.nodeIndex + 1, a, 1⟩]⟩ (hs1 _) k
    obtain ⟨i2, h2⟩ := ih (a + 1) hcell' ⟨i1, s.trace ++ [⟨s.nodeIndex + 1, a, 1⟩]⟩ (hs1 _) k
    refine ⟨i2, ?_⟩
    have e3 : n + 1 + k = (n + k) + 1 := by omega
    rw [e3] at h1 h2 ⊢
    simp only [gmar, GV.mar] at h1 h2
    rw [gmar]
    simp only [GV.mar, marshalPtr, traceFind_clear fun e he => Nat.ne_of_lt (hs e he), hc, gmar, GV.mars]
    simp only [marshalPtr] at h1 h2
    simp [h1, h2, optEmpty, optForce, forceStr, tracePop_snoc, ladderJ, MJ.mark]

end Jsonutils
