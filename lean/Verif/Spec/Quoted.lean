import Verif.Spec.Marshal
import Verif.Spec.Float

/-!
# The tag option `string`
-/

namespace Jsonutils

/-- Types the option `string` says nothing about. -/
def Leaf.Unquoted : Leaf → Prop
  | .bool _ | .int _ | .float32 _ | .float64 _ => False
  | _ => True

/-- `Quoted h g w v`: if the value `g` by itself marshals to `w`, then as a field with the option `string` it marshals to `v`: truth values,
integers, slices, maps and structs to the text of `w`; floats to their text with six digits behind the point; texts, times,
documents and all else is not changed. -/
inductive Quoted (h : List GV) : GV → J → J → Prop
  | bool (b : Bool) (w : J) : Quoted h (.leaf (.bool b)) w (.str w.toBytes)
  | int (n : Int) (w : J) : Quoted h (.leaf (.int n)) w (.str w.toBytes)
  | float32 {x : GoFloat} {s : Bytes} (w : J) : SixDigits x s → Quoted h (.leaf (.float32 x)) w (.str s)
  | float64 {x : GoFloat} {s : Bytes} (w : J) : SixDigits x s → Quoted h (.leaf (.float64 x)) w (.str s)
  | other {l : Leaf} (w : J) : l.Unquoted → Quoted h (.leaf l) w w
  | doc (j w : J) : Quoted h (.jsonPtr j) w w
  | seq (xs : List GV) (w : J) : Quoted h (.seq xs) w (.str w.toBytes)
  | map (kvs : List (Bytes × GV)) (w : J) : Quoted h (.map kvs) w (.str w.toBytes)
  | struct (fs : List (FInfo × GV)) (w : J) : Quoted h (.struct fs) w (.str w.toBytes)
  | iface {x : GV} {w v : J} : Quoted h x w v → Quoted h (.iface x) w v
  | ptr {a : Nat} {x : GV} {w v : J} : h[a]? = some x → Quoted h x w v → Quoted h (.ptr a) w v
  | shared {a : Nat} {x : GV} {w v : J} : h[a]? = some x → Quoted h x w v → Quoted h (.shared a) w v

end Jsonutils
