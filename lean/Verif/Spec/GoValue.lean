import Verif.Model.Access
import Verif.Spec.MarshalMap

/-!
# Vocabulary for `Interface()` against `Marshal`
-/

namespace Jsonutils

mutual
/-- The Go value that `Interface()` returned, as `Marshal` is handed it: `nil`, a `bool`, `int64`, `float64` or `string`, a
`[]interface{}` (never a nil slice) or a `map[string]interface{}`.  Elements are of interface type. -/
def Iface.go : Iface → GU
  | .nil => .leaf .nil
  | .bool b => .leaf (.bool b)
  | .int n => .leaf (.int n)
  | .float x => .leaf (.float64 x)
  | .str s => .leaf (.str s)
  | .slice xs => .seq (Iface.goElems xs)
  | .map kvs => .map (Iface.goEntries kvs)
/-- Each element: a nil interface, or an interface that holds the value. -/
def Iface.goElems : List Iface → List GU
  | [] => []
  | .nil :: xs => .leaf .nil :: Iface.goElems xs
  | x :: xs => .iface x.go :: Iface.goElems xs
def Iface.goEntries : List (Bytes × Iface) → List (MapKey × GU)
  | [] => []
  | (k, .nil) :: xs => (.text k none, .leaf .nil) :: Iface.goEntries xs
  | (k, x) :: xs => (.text k none, .iface x.go) :: Iface.goEntries xs
end

mutual
/-- A value that exists: integers fit int64, floats are floats (see `GoFloat.Canonical`), and maps are listed by their keys
(which is how `Iface` writes a Go map). -/
def Iface.Possible : Iface → Prop
  | .int n => InI64 n
  | .float x => x.Canonical
  | .slice xs => Iface.Possibles xs
  | .map kvs => SMap.Sorted kvs ∧ Iface.Possiblef kvs
  | _ => True
def Iface.Possibles : List Iface → Prop
  | [] => True
  | x :: xs => x.Possible ∧ Iface.Possibles xs
def Iface.Possiblef : List (Bytes × Iface) → Prop
  | [] => True
  | (_, x) :: xs => x.Possible ∧ Iface.Possiblef xs
end

mutual
/-- The document without what a Go value cannot hold: node ids gone, references null, and no number remembers that it came
from a `float32`. -/
def J.renewed : J → J
  | .arr xs => .arr (J.reneweds xs)
  | .dict _ kvs => .dict 0 (J.renewedf kvs)
  | .float x _ => .float x 64
  | .ptr _ => .null
  | v => v
def J.reneweds : List J → List J
  | [] => []
  | x :: xs => x.renewed :: J.reneweds xs
def J.renewedf : List (Bytes × J) → List (Bytes × J)
  | [] => []
  | (k, x) :: xs => (k, x.renewed) :: J.renewedf xs
end

/-- The value is null. -/
def J.isNullLit : J → Bool
  | .null => true
  | _ => false

mutual
/-- The document without the elements and entries that are null, at any depth. -/
def J.noNulls : J → J
  | .arr xs => .arr (J.noNullss xs)
  | .dict id kvs => .dict id (J.noNullsf kvs)
  | v => v
def J.noNullss : List J → List J
  | [] => []
  | x :: xs => if x.isNullLit then J.noNullss xs else x.noNulls :: J.noNullss xs
def J.noNullsf : List (Bytes × J) → List (Bytes × J)
  | [] => []
  | (k, x) :: xs => if x.isNullLit then J.noNullsf xs else (k, x.noNulls) :: J.noNullsf xs
end

end Jsonutils
