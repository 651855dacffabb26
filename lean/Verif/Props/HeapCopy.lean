import Verif.Proofs.HeapCopy
import Verif.Props.Heap
import Verif.Props.Dict

/-!
# C22: `DeepCopy` of documents with reference pointers; C32: `Interface()` of a reference
-/

namespace Jsonutils.Props
open Jsonutils

/-- **C22, any object graph.** Whenever `DeepCopy` returns, on any memory (nils and reference pointers anywhere, sharing): what existed
before is untouched, and the result is a copy, but for nil in place of every reference pointer.  So the copy of a document with a
reference in it contains a nil; `C77_reference_copy` says what that does to the copy. -/
theorem C22_references (ord : SMap Ref → SMap Ref) (hord : ∀ l, (ord l).Perm l) (h : Heap) (hok : h.Ok) (ht : h.Tidy) (a : Addr)
    (ha : a < h.length) (f : Nat) (y : Ref) (h' : Heap) (hc : deepCopyH ord f h (some a) = .ok (y, h')) :
    h <+: h' ∧ Copied h' (some a) y ∧ (HasRef h' (some a) → HasNil h' y) := by
  obtain ⟨h1, h2, _, h4⟩ := (copied_all hord f).1 h (some a) y h' ⟨hok.inside, ht⟩ (fun b hb => by simp at hb; subst hb; exact ha) hc
  exact ⟨h1, h4, fun hr => hasNil_of_ref h4 h2.tidy (Or.inl hr)⟩

/-- `[<7>]`, with an id-carrying sibling: the copy is `[nil, {}]`. -/
example : ∃ h', deepCopyH id 9 (Heap.base ++ [.ptr 7, .dict 5 [], .arr [some 3, some 4]]) (some 5) = .ok (some 7, h') ∧
    h'[7]? = some (.arr [none, some 6]) ∧ h'[6]? = some (.dict 0 []) := ⟨_, rfl, rfl, rfl⟩

mutual
private theorem copy_none (ord : List (Bytes × J) → List (Bytes × J)) : ∀ v : J, v.deepCopy ord = none ↔ ¬ v.NoPtr
  | .null => by simp [J.deepCopy, J.NoPtr]
  | .bool _ => by simp [J.deepCopy, J.NoPtr]
  | .int _ => by simp [J.deepCopy, J.NoPtr]
  | .float _ _ => by simp [J.deepCopy, J.NoPtr]
  | .str _ => by simp [J.deepCopy, J.NoPtr]
  | .ptr _ => by simp [J.deepCopy, J.NoPtr]
  | .arr xs => by simp only [J.deepCopy, J.NoPtr, Option.map_eq_none_iff]; exact copys_none ord xs
  | .dict _ kvs => by simp only [J.deepCopy, J.NoPtr, Option.map_eq_none_iff]; exact copyf_none ord kvs
private theorem copys_none (ord : List (Bytes × J) → List (Bytes × J)) : ∀ xs : List J, J.deepCopys ord xs = none ↔ ¬ J.NoPtrs xs
  | [] => by simp [J.deepCopys, J.NoPtrs]
  | x :: xs => by
    have h1 := copy_none ord x
    have h2 := copys_none ord xs
    simp only [J.deepCopys, J.NoPtrs]
    cases hx : x.deepCopy ord with
    | none => simp only [hx, true_iff] at h1; simp [h1]
    | some y =>
      simp only [hx, reduceCtorEq, false_iff] at h1
      cases hy : J.deepCopys ord xs with
      | none => simp only [hy, true_iff] at h2; simp [h2]
      | some ys => simp only [hy, reduceCtorEq, false_iff] at h2; simp; exact ⟨Classical.not_not.1 h1, Classical.not_not.1 h2⟩
private theorem copyf_none (ord : List (Bytes × J) → List (Bytes × J)) : ∀ xs : List (Bytes × J), J.deepCopyf ord xs = none ↔ ¬ J.NoPtrf xs
  | [] => by simp [J.deepCopyf, J.NoPtrf]
  | (k, x) :: xs => by
    have h1 := copy_none ord x
    have h2 := copyf_none ord xs
    simp only [J.deepCopyf, J.NoPtrf]
    cases hx : x.deepCopy ord with
    | none => simp only [hx, true_iff] at h1; simp [h1]
    | some y =>
      simp only [hx, reduceCtorEq, false_iff] at h1
      cases hy : J.deepCopyf ord xs with
      | none => simp only [hy, true_iff] at h2; simp [h2]
      | some ys => simp only [hy, reduceCtorEq, false_iff] at h2; simp; exact ⟨Classical.not_not.1 h1, Classical.not_not.1 h2⟩
end

/-- **C22, on values.** There is a document that the copy spells exactly if the original has no reference pointer in it. -/
theorem C22_copy_exists_iff (ord : List (Bytes × J) → List (Bytes × J)) (v : J) : (∃ w, v.deepCopy ord = some w) ↔ v.NoPtr := by
  have := copy_none ord v
  cases h : v.deepCopy ord with
  | none => rw [h] at this; simp only [true_iff] at this; simp [this]
  | some w => rw [h] at this; simp only [reduceCtorEq, false_iff] at this; simp; exact Classical.not_not.1 this

example : ¬ (J.dict 0 [(b!"a", .arr [.int 1, .ptr 2])]).NoPtr := by simp [J.NoPtr, J.NoPtrf, J.NoPtrs]

/-- **C32, references.** `Interface()` of an unresolved reference is nil, at whatever place of the document it stands. -/
theorem C32_reference (v : J) (p : List Sel) (id : Int) (h : v.at p = some (.ptr id)) : v.interface.at p = some .nil := by
  rw [(C32_interface v p).1, h]; rfl

example : (J.arr [.int 1, .ptr 2]).interface.at [.idx 1] = some .nil := C32_reference _ _ 2 rfl

end Jsonutils.Props
