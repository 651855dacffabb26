import Verif.Spec.HeapRead

/-!
# Vocabulary for editing a part of a document in memory
-/

namespace Jsonutils

/-- One step into a document: to the value of a key, or to an element. -/
inductive Move where
  | key (k : Bytes)
  | elem (i : Nat)

/-- `v.Sub p x`: at position `p` inside the document `v` stands `x`. -/
inductive J.Sub : J → List Move → J → Prop where
  | here (v : J) : J.Sub v [] v
  | key {id : Int} {kvs : List (Bytes × J)} {k : Bytes} {x y : J} {p : List Move} : (k, x) ∈ kvs → J.Sub x p y →
      J.Sub (.dict id kvs) (.key k :: p) y
  | elem {xs : List J} {i : Nat} {x y : J} {p : List Move} : xs[i]? = some x → J.Sub x p y → J.Sub (.arr xs) (.elem i :: p) y

/-- `Way h a p d`: position `p` of the object at `a` is the object at `d` (the very object, not an equal one). -/
inductive Way (h : Heap) : Addr → List Move → Addr → Prop where
  | here (a : Addr) : Way h a [] a
  | key {a b d : Addr} {id : Int} {kvs : SMap Ref} {k : Bytes} {p : List Move} : h[a]? = some (.dict id kvs) → (k, some b) ∈ kvs →
      Way h b p d → Way h a (.key k :: p) d
  | elem {a b d : Addr} {rs : List Ref} {i : Nat} {p : List Move} : h[a]? = some (.arr rs) → rs[i]? = some (some b) →
      Way h b p d → Way h a (.elem i :: p) d

/-- The two values are alike but for the values of their members: same scalar, same length, or same keys and node id. -/
def SameNode : J → J → Prop
  | .arr xs, .arr ys => xs.length = ys.length
  | .dict i xs, .dict j ys => i = j ∧ xs.map (·.1) = ys.map (·.1)
  | x, y => x = y

/-- `Edited h d w a v v'`: the document `v'` is the document `v` at `a` with the object `d` replaced, wherever it occurs in it, by `w`, and
nothing else changed. -/
structure Edited (h : Heap) (d : Addr) (w : J) (a : Addr) (v v' : J) : Prop where
  /-- Wherever `d` was, there is `w`. -/
  inside : ∀ p, Way h a p d → v'.Sub p w
  /-- Positions neither inside nor around an occurrence of `d` have the value they had. -/
  apart : ∀ p x, v.Sub p x → (∀ q r, p = q ++ r → ¬ Way h a q d) → (∀ q, ¬ Way h a (p ++ q) d) → v'.Sub p x
  /-- Positions around an occurrence of `d` have a value of the same kind with the same members. -/
  around : ∀ p x, v.Sub p x → (∀ q r, p = q ++ r → ¬ Way h a q d) → ∃ y, v'.Sub p y ∧ SameNode x y

/-- The object a call changes, if it is a call that changes one. -/
def Call.target : Call → Option Addr
  | .set d _ _ => some d
  | .remove d _ => some d
  | .setAt d _ _ => some d
  | .append d _ => some d
  | .update d _ => some d
  | .floatText d => some d
  | _ => none

/-- The document with one member on each level. -/
def nest : List Bytes → J → J
  | [], w => w
  | k :: ks, w => .dict 0 [(k, nest ks w)]

/-- `kvs'` is `kvs` with the value of `k` set to `x`, the keys sorted. -/
def IsPut (kvs : List (Bytes × J)) (k : Bytes) (x : J) (kvs' : List (Bytes × J)) : Prop :=
  SMap.Sorted kvs' ∧ ∀ k' y, (k', y) ∈ kvs' ↔ k' = k ∧ y = x ∨ k' ≠ k ∧ (k', y) ∈ kvs

end Jsonutils
