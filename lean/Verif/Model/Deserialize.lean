import Verif.Model.Unmarshal
import Verif.Model.Parse

/-!
# `JSONDeserialize`: reflect.go:40-86

`gotypes.NewSerializable(t)` looks `t` up in a table of factories; `gotypes.Transform` is the identity for types without a
registered transformer (`yunion.io/x/pkg/gotypes`, external).  The package registers three types (reflect.go:54-65) and no
transformer.  Simplification: types registered by other packages are left out: they are `other`.
-/

namespace Jsonutils

/-- The types one can ask for. -/
inductive SerType where
  | object                -- JSONObjectType, reflect.go:54-56: its factory returns nil
  | dictPtr               -- JSONDictPtrType, reflect.go:58-60: NewDict()
  | arrayPtr              -- JSONArrayPtrType, reflect.go:62-64: NewArray()
  | other                 -- anything else: not registered
  deriving DecidableEq, Repr

/-- What `JSONDeserialize` does. -/
inductive DesOut where
  | ok (v : J)
  | notSerializable       -- reflect.go:70-72
  | parse (e : PErr)      -- reflect.go:74-76
  | unmarshal (e : UErr)  -- reflect.go:81-83
  | panic
  | diverge
  deriving Repr

/-- reflect.go:54-64: the type and value behind the pointer the factory returns, if it does not return nil. -/
def SerType.fresh : SerType → Option (Ty × UV)
  | .dictPtr => some (.jval .dict, .json (newDict []))
  | .arrayPtr => some (.jval .arr, .json (newArray []))
  | _ => none

/-- reflect.go:80-85: `json.Unmarshal(objPtr)`. -/
def fillFresh (P : UEnv) (v : J) (t : Ty) (x : UV) : DesOut :=
  match v.unmarshal P [] t x with
  | some (.json w, none) => .ok w
  | some (_, some e) => .unmarshal e
  | _ => .panic

/-- reflect.go:68-86 `JSONDeserialize(objType, strVal)`. -/
def jsonDeserialize (P : UEnv) (t : SerType) (s : Bytes) : DesOut :=
  if t = .other then .notSerializable
  else match Jsonutils.parse s with
    | .err e => .parse e
    | .panic _ => .panic
    | .diverge => .diverge
    | .ok v => match t.fresh with
      | none => .ok v
      | some (ty, x) => fillFresh P v ty x

end Jsonutils
