import Verif.Prelude

/-!
# unmarshal_session.go: resolving `<n>` references while unmarshalling
-/

namespace Jsonutils

/-- A pointer value (`reflect.Value` of a pointer): the address, and the pointer's type. -/
structure PVal where
  addr : Nat
  ty : Nat
  deriving DecidableEq, Repr

/-- A settable Go variable (`reflect.Value` obtained from a field, element, ...): its address and its type. -/
structure GoVar where
  addr : Nat
  ty : Nat
  deriving DecidableEq, Repr

/-- unmarshal_session.go:21-25 `sJsonNodeValues`; `node = none` is `nodeValueSet == false`. -/
structure NodeValues where
  node : Option PVal
  targets : List GoVar
  deriving Repr

/-- unmarshal_session.go:27-29 `sJsonUnmarshalSession`, and the memory: the contents of the pointer variables. -/
structure USess where
  objectMap : List (Int × NodeValues)
  mem : GoVar → Option PVal

/-- unmarshal_session.go:31-35, with all variables still nil. -/
def USess.init : USess := ⟨[], fun _ => none⟩

/-- Lookup in the Go map `objectMap`. -/
def omGet : List (Int × NodeValues) → Int → Option NodeValues
  | [], _ => none
  | (k, v) :: r, id => if k = id then some v else omGet r id

/-- Assignment in the Go map `objectMap` (also through the stored pointer). -/
def omSet : List (Int × NodeValues) → Int → NodeValues → List (Int × NodeValues)
  | [], id, nv => [(id, nv)]
  | (k, v) :: r, id, nv => if k = id then (k, nv) :: r else (k, v) :: omSet r id nv

/-- `val.Set(p)` of reflect: panics (`none`) unless the type of `p` is assignable to the type of the variable.
`asg` is assignability of types (a parameter). -/
def reflectSet (asg : Nat → Nat → Bool) (mem : GoVar → Option PVal) (v : GoVar) (p : PVal) : Option (GoVar → Option PVal) :=
  if asg p.ty v.ty then some (fun w => if w = v then some p else mem w) else none

/-- unmarshal_session.go:46-48: set all waiting targets. -/
def setTargets (asg : Nat → Nat → Bool) (p : PVal) : (GoVar → Option PVal) → List GoVar → Option (GoVar → Option PVal)
  | mem, [] => some mem
  | mem, v :: vs => match reflectSet asg mem v p with
    | none => none
    | some mem' => setTargets asg p mem' vs

/-- unmarshal_session.go:37-51 `saveNodeValue(nodeId, val)`; `none` = panic. -/
def USess.saveNodeValue (asg : Nat → Nat → Bool) (s : USess) (id : Int) (p : PVal) : Option USess :=
  match omGet s.objectMap id with
  | none => some { s with objectMap := omSet s.objectMap id ⟨some p, []⟩ }
  | some nv => match setTargets asg p s.mem nv.targets with
    | none => none
    | some mem => some ⟨omSet s.objectMap id ⟨some p, []⟩, mem⟩

/-- unmarshal_session.go:53-67 `setPointerValue(nodeId, val)`; `none` = panic. -/
def USess.setPointerValue (asg : Nat → Nat → Bool) (s : USess) (id : Int) (v : GoVar) : Option USess :=
  match omGet s.objectMap id with
  | some ⟨some p, _⟩ => (reflectSet asg s.mem v p).map fun mem => { s with mem := mem }
  | some ⟨none, ts⟩ => some { s with objectMap := omSet s.objectMap id ⟨none, ts ++ [v]⟩ }
  | none => some { s with objectMap := omSet s.objectMap id ⟨none, [v]⟩ }

/-- What unmarshalling a document asks of the session, in document order. -/
inductive UEv where
  | save (id : Int) (p : PVal)        -- unmarshal.go:479-481: a dictionary with node id, unmarshalled into an addressable variable
  | refer (id : Int) (v : GoVar)      -- jsonpointer.go:75-77: a reference `<id>`, unmarshalled into v
  deriving DecidableEq, Repr

def USess.step (asg : Nat → Nat → Bool) (s : USess) : UEv → Option USess
  | .save id p => s.saveNodeValue asg id p
  | .refer id v => s.setPointerValue asg id v

/-- A whole sequence; `none` = panic. -/
def USess.run (asg : Nat → Nat → Bool) : USess → List UEv → Option USess
  | s, [] => some s
  | s, e :: es => match s.step asg e with
    | none => none
    | some s' => USess.run asg s' es

/-- The saves made for a dictionary with node id `id` unmarshalled into the pointer variable `v` whose pointee is
`p`: `JSONDict.unmarshalValue` is called on `v` itself (saving `&v`, of type pointer-to-pointer `pp`), and then, by the
pointer case, on `*v` (saving the pointee's address): unmarshal.go:478-482, 526-535. -/
def dictIntoPointer (id : Int) (v : GoVar) (pp : Nat) (p : PVal) : List UEv :=
  [.save id ⟨v.addr, pp⟩, .save id p]

end Jsonutils
