import Verif.Spec.Heap

/-!
# What a copy of an object graph is, when the graph may contain nil and reference pointers
-/

namespace Jsonutils

/-- Objects without variables in them, but for reference pointers. -/
def Obj.IsLeaf : Obj → Prop
  | .arr _ => False
  | .dict _ _ => False
  | .ptr _ => False
  | _ => True

/-- `Copied h r y`: in memory `h`, the variable `y` holds a copy of what `r` holds: an object of the same kind and content, without node
id, whose variables hold copies in turn; but nil where `r` holds nil or a reference pointer. -/
inductive Copied (h : Heap) : Ref → Ref → Prop where
  | nil : Copied h none none
  | ref {a : Addr} {id : Int} : h[a]? = some (.ptr id) → Copied h (some a) none
  | leaf {a b : Addr} {o : Obj} : h[a]? = some o → o.IsLeaf → h[b]? = some o → Copied h (some a) (some b)
  | arr {a b : Addr} {xs ys : List Ref} : h[a]? = some (.arr xs) → h[b]? = some (.arr ys) → xs.length = ys.length →
      (∀ (i : Nat) x y, xs[i]? = some x → ys[i]? = some y → Copied h x y) → Copied h (some a) (some b)
  | dict {a b : Addr} {id : Int} {xs ys : SMap Ref} : h[a]? = some (.dict id xs) → h[b]? = some (.dict 0 ys) → SMap.Sorted ys →
      (∀ k, (smGet xs k).isSome = (smGet ys k).isSome) → (∀ k x y, smGet xs k = some x → smGet ys k = some y → Copied h x y) →
      Copied h (some a) (some b)

/-- Dictionaries in memory have their keys sorted. -/
def Heap.Tidy (h : Heap) : Prop := ∀ (a : Nat) id kvs, h[a]? = some (.dict id kvs) → SMap.Sorted kvs

/-- Somewhere in the graph below the variable there is a reference pointer (not behind another one). -/
inductive HasRef (h : Heap) : Ref → Prop where
  | here {a : Addr} {id : Int} : h[a]? = some (.ptr id) → HasRef h (some a)
  | inside {a : Addr} {o : Obj} {r : Ref} : h[a]? = some o → r ∈ o.refs → HasRef h r → HasRef h (some a)

/-- Somewhere in the graph below the variable there is a nil variable. -/
inductive HasNil (h : Heap) : Ref → Prop where
  | here : HasNil h none
  | inside {a : Addr} {o : Obj} {r : Ref} : h[a]? = some o → r ∈ o.refs → HasNil h r → HasNil h (some a)

end Jsonutils
