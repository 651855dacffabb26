import Verif.Proofs.MarshalFacts
import Verif.Proofs.FloatText
import Verif.Spec.Quoted

namespace Jsonutils
open Rfc

variable {ord : SMap Bytes → List (Bytes × Bytes)} {oe : Bool}

theorem sprintfF_six (x : GoFloat) : SixDigits x (sprintfF x) := by
  cases x with
  | nan => exact .nan
  | inf neg => cases neg; exact .inf; exact .negInf
  | fin neg m e =>
    have hn := fun c' => roundDiv_nearest (m * 2 ^ e * 10 ^ 6) (2 ^ f64.bias) c' (Nat.pow_pos (by decide))
    refine .fin (c := roundDiv (m * 2 ^ e * 10 ^ 6) (2 ^ f64.bias)) (fun c' => (hn c').1) (fun c' => (hn c').2) (fun h0 => ?_) (fun h0 => ?_)
    · obtain ⟨n, h1, h2⟩ := decText_number neg (roundDiv (m * 2 ^ e * 10 ^ 6) (2 ^ f64.bias)) (-6) h0
      exact ⟨n, h1, isDecimal_of_text h1 h2⟩
    · simp only [sprintfF]; rw [h0]; cases neg <;> rfl

theorem quoted_leaf {h : List GV} {l : Leaf} {info : Option FInfo} {v : J} (hf : optForce info = true) (hm : l.marshal info oe = some v) :
    ∃ w, l.marshal none oe = some w ∧ Quoted h (.leaf l) w v := by
  cases l with
  | bool b =>
    simp only [Leaf.marshal, marshalBoolean] at hm
    split at hm
    · cases hm
    · cases hm
      exact ⟨.bool b, by simp [Leaf.marshal, marshalBoolean, optFalse, optForce], by have := Quoted.bool (h := h) b (.bool b); cases b <;> exact this⟩
  | int n =>
    simp only [Leaf.marshal, marshalInt64] at hm
    split at hm
    · cases hm
    · cases hm
      exact ⟨newInt n, by simp [Leaf.marshal, marshalInt64, optZero, optForce], .int n (newInt n)⟩
  | float32 x =>
    simp only [Leaf.marshal, marshalFloat32] at hm
    split at hm
    · cases hm
    · cases hm
      exact ⟨newFloat32 x, by simp [Leaf.marshal, marshalFloat32, optZero, optForce], .float32 _ (sprintfF_six x)⟩
  | float64 x =>
    simp only [Leaf.marshal, marshalFloat64] at hm
    split at hm
    · cases hm
    · cases hm
      exact ⟨newFloat64 x, by simp [Leaf.marshal, marshalFloat64, optZero, optForce], .float64 _ (sprintfF_six x)⟩
  | nil => exact ⟨v, hm, .other v trivial⟩
  | str s =>
    refine ⟨v, ?_, .other v trivial⟩
    simp only [Leaf.marshal, marshalString] at hm ⊢
    split at hm
    · cases hm
    · simpa [optEmpty] using hm
  | tri t => exact ⟨v, hm, .other v trivial⟩
  | time t =>
    refine ⟨v, ?_, .other v trivial⟩
    cases t with
    | none =>
      simp only [Leaf.marshal, marshalTime] at hm ⊢
      split at hm
      · cases hm
      · simpa [optEmpty] using hm
    | some s => exact hm
  | jsonVal j =>
    refine ⟨v, ?_, .other v trivial⟩
    simp only [Leaf.marshal] at hm ⊢
    split at hm
    · cases hm
    · simpa [optEmpty] using hm
  | jsonIface j => exact ⟨v, hm, .other v trivial⟩
  | std j => exact ⟨v, hm, .other v trivial⟩
  | other => exact ⟨v, hm, .other v trivial⟩

theorem quoted_tree {h : List GV} {g : GV} {t : TV} (hu : Unf h g t) {info : Option FInfo} (hf : optForce info = true) :
    ∀ v, t.mar ord oe info = some (some v) → ∃ w, t.mar ord oe none = some (some w) ∧ Quoted h g w v := by
  refine (Unf.induct (h := h) (P := fun g t => ∀ v, t.mar ord oe info = some (some v) → ∃ w, t.mar ord oe none = some (some w) ∧ Quoted h g w v)
    (Ps := fun _ _ => True) (Pm := fun _ _ => True) (Pf := fun _ _ => True)
    ?_ ?_ ?_ ?_ ?_ ?_ ?_ ?_ trivial (fun _ _ _ _ => trivial) trivial (fun _ _ _ _ => trivial) trivial (fun _ _ _ _ => trivial)).1 hu
  · intro l v hm
    simp only [TV.mar, Option.some.injEq] at hm ⊢
    exact quoted_leaf hf hm
  · intro j v hm
    simp only [TV.mar, Option.some.injEq] at hm ⊢
    exact ⟨v, hm, .doc j v⟩
  · intro xs ts _ _ v hm
    simp only [TV.mar] at hm ⊢
    split at hm
    · cases hm
    · rw [if_neg (by simp [optEmpty])]
      split at hm
      · cases hm
      · rename_i ys hy
        simp only [forceJ, if_pos hf, Option.some.injEq] at hm ⊢
        subst hm
        exact ⟨_, by simp [optForce], .seq xs _⟩
  · intro xs ts _ _ v hm
    simp only [TV.mar] at hm ⊢
    split at hm
    · cases hm
    · rw [if_neg (by simp [optEmpty])]
      split at hm
      · cases hm
      · rename_i ys hy
        simp only [forceJ, if_pos hf, Option.some.injEq] at hm ⊢
        subst hm
        exact ⟨_, by simp [optForce], .map xs _⟩
  · intro xs ts _ _ v hm
    simp only [TV.mar] at hm ⊢
    split at hm
    · cases hm
    · rename_i ps dep hy
      simp only [structJ] at hm ⊢
      split at hm
      · cases hm
      · rename_i dps hd
        split at hm
        · cases hm
        · rw [if_neg (by simp [optEmpty])]
          simp only [forceJ, if_pos hf, Option.some.injEq] at hm ⊢
          subst hm
          exact ⟨_, by simp [optForce], .struct xs _⟩
  · intro x t _ ih v hm
    simp only [TV.mar] at hm ⊢
    obtain ⟨w, h1, h2⟩ := ih v hm
    exact ⟨w, h1, .iface h2⟩
  · intro a g t ha _ ih v hm
    simp only [TV.mar] at hm ⊢
    obtain ⟨w, h1, h2⟩ := ih v hm
    exact ⟨w, h1, .ptr ha h2⟩
  · intro a g t ha _ ih v hm
    obtain ⟨w, h1, h2⟩ := ih v hm
    exact ⟨w, h1, .shared ha h2⟩

end Jsonutils
