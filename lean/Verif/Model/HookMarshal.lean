import Verif.Model.Hooks
import Verif.Model.Marshal
import Verif.Spec.Unmarshal
import Verif.Spec.Marshal

/-!
# Methods of the user's types in `Marshal`: std_json.go:85-121, marshal.go:235-244, 263-267

What `Marshal` sees of a typed value whose type has a `MarshalJSON` method, or is `time.Time`.  The methods are arbitrary
functions.
-/

namespace Jsonutils

/-- The methods of the user's types, in both directions. -/
structure Codec extends Hooks where
  /-- `MarshalJSON`: for which types it is declared, whether with a pointer receiver, and the text it returns (`none` = an
  error). -/
  enc : Ty → Option (Bool × (UV → Option Bytes))
  /-- `timeutils.FullIsoTime(t)` of a `time.Time`, `none` for the zero time. -/
  fmt : UV → Option Bytes

/-- std_json.go:89-102 `indirectStdMarshaler`: `v.Interface().(json.Marshaler)`, for a `v` of type `t` that is no nil pointer.
The methods of `*T` are those of `T`, and those declared with a pointer receiver; `**T` has none. -/
def Codec.method (M : Codec) : Ty → Option (UV → Option Bytes)
  | .ptr (.ptr _) => none
  | .ptr t => (M.enc t).map fun p v => match v with
    | .ptr x => p.2 x
    | _ => none
  | t => match M.enc t with
    | some (false, m) => some m
    | _ => none

/-- Types of values that `Marshal` does not look into: `time.Time` (std_json.go:105 excepts it from `MarshalJSON`), and those
with a `MarshalJSON` method. -/
def Codec.direct (M : Codec) (t : Ty) : Bool := M.isTime t || (M.method t).isSome

/-- Such a value.  Simplification: where the method returns an error or a text that `Parse` rejects, `Marshal` panics
(std_json.go:112-118); here it is null, and the theorems exclude the case. -/
def Codec.written (M : Codec) (t : Ty) (v : UV) : TV :=
  if M.isTime t then .leaf (.time (M.fmt v))
  else match M.method t with
    | some m => .leaf (.std ((stdMarshal (m v)).getD .null))
    | none => .leaf .nil

mutual
/-- The value as `Marshal` classifies it: as `UV.toTV`, with the methods of the user's types.  Simplification: a nil slice or
map whose type has a method is not modelled. -/
def UV.toTVH (M : Codec) (D : Defs) : UV → Ty → TV
  | .seq xs sp, t => if M.direct t then M.written t (.seq xs sp) else .seq (UV.toTVHs M D xs t.elem)
  | .arr xs, t => if M.direct t then M.written t (.arr xs) else .seq (UV.toTVHs M D xs t.elem)
  | .map kvs, t => if M.direct t then M.written t (.map kvs) else .map (UV.toTVHm M D kvs t.elem)
  | .ptr x, t => if M.direct t then M.written t (.ptr x) else .ptr (UV.toTVH M D x t.elem)
  | .struct vs, t => if M.direct t then M.written t (.struct vs) else .struct (UV.toTVHf M D vs (t.fields D))
  | .nil, _ => .leaf .nil
  | v, t => if M.direct t then M.written t v else v.toTV D t
def UV.toTVHs (M : Codec) (D : Defs) : List UV → Ty → List TV
  | [], _ => []
  | x :: xs, t => UV.toTVH M D x t :: UV.toTVHs M D xs t
def UV.toTVHm (M : Codec) (D : Defs) : List (Bytes × UV) → Ty → List (Bytes × TV)
  | [], _ => []
  | (k, x) :: xs, t => (k, UV.toTVH M D x t) :: UV.toTVHm M D xs t
def UV.toTVHf (M : Codec) (D : Defs) : List UV → List (FInfo × Ty) → List (FInfo × TV)
  | x :: xs, (i, t) :: fs => (i, UV.toTVH M D x t) :: UV.toTVHf M D xs fs
  | _, _ => []
end

end Jsonutils
