import Verif.Prelude

/-!
# Contract of `yunion.io/x/pkg/sortedmap` (external, source not in /repo)

`SSortedMap` is a slice of (key, value) elements in strictly increasing key order.  Each function below is the
documented behaviour of the external function of the same name that jsonutils calls; this file is part of the
trusted base.
-/

namespace Jsonutils

/-- `sortedmap.SSortedMap` with values in `α`. -/
abbrev SMap (α : Type) := List (Bytes × α)

/-- The representation invariant: keys strictly increasing. -/
def SMap.Sorted {α} (m : SMap α) : Prop := m.Pairwise fun a b => blt a.1 b.1 = true

/-- `sortedmap.Add(m, key, value)`: insert, or replace the value of an existing key. Called at access.go:77,
jsonutils.go:481. -/
def smAdd {α} : SMap α → Bytes → α → SMap α
  | [], k, v => [(k, v)]
  | (k', v') :: r, k, v =>
    if blt k' k then (k', v') :: smAdd r k v
    else if k' = k then (k, v) :: r
    else (k, v) :: (k', v') :: r

/-- `m.Get(key)`. Called at access.go:114, 117, 222, dict.go:46-47, equals.go:34-35. -/
def smGet {α} : SMap α → Bytes → Option α
  | [], _ => none
  | (k', v) :: r, k => if k' = k then some v else smGet r k

/-- `sortedmap.Delete(m, key)`: the map without the key, and whether it was there. Called at access.go:103. -/
def smDelete {α} : SMap α → Bytes → SMap α × Bool
  | [], _ => ([], false)
  | (k', v) :: r, k =>
    if k' = k then (r, true) else let d := smDelete r k; ((k', v) :: d.1, d.2)

/-- `m.GetIgnoreCase(key)`: value of the first key whose folding equals that of `key`; `fold` is the case-folding
function of the external package (a parameter here). Called at access.go:224. -/
def smGetFold {α} (fold : Bytes → Bytes) : SMap α → Bytes → Option α
  | [], _ => none
  | (k', v) :: r, k => if fold k' = fold k then some v else smGetFold fold r k

/-- `sortedmap.DeleteIgnoreCase(m, key)`: removes the first matching entry. Called at access.go:101. -/
def smDeleteFold {α} (fold : Bytes → Bytes) : SMap α → Bytes → SMap α × Bool
  | [], _ => ([], false)
  | (k', v) :: r, k =>
    if fold k' = fold k then (r, true)
    else let d := smDeleteFold fold r k; ((k', v) :: d.1, d.2)

/-- `m.Keys()`: keys in order. Called at jsonutils.go:568, dict.go:45, equals.go:33. -/
def smKeys {α} (m : SMap α) : List Bytes := m.map (·.1)

/-- `sortedmap.Merge(a, b)`: union, `b` wins on common keys. Called at dict.go:26, 34. -/
def smMerge {α} (a b : SMap α) : SMap α := b.foldl (fun m kv => smAdd m kv.1 kv.2) a

/-- `sortedmap.Split(a, b)` = (only in a, common with a's values, common with b's values, only in b).
Called at dict.go:44, equals.go:29. -/
def smSplit {α} (a b : SMap α) : SMap α × SMap α × SMap α × SMap α :=
  (a.filter fun kv => (smGet b kv.1).isNone,
   a.filter fun kv => (smGet b kv.1).isSome,
   b.filter fun kv => (smGet a kv.1).isSome,
   b.filter fun kv => (smGet a kv.1).isNone)

end Jsonutils
