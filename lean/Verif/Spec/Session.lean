import Verif.Model.UnmarshalSession

/-! # Vocabulary for histories of node definitions and references -/

namespace Jsonutils

/-- The addresses saved for a node, in order. -/
def savesOf (id : Int) (es : List UEv) : List PVal :=
  es.filterMap fun e => match e with
    | .save i p => if i = id then some p else none
    | _ => none

/-- The variables referring to a node, in order. -/
def refersOf (id : Int) (es : List UEv) : List GoVar :=
  es.filterMap fun e => match e with
    | .refer i v => if i = id then some v else none
    | _ => none

/-- `v` is the variable of no reference in the list. -/
def NoRef (v : GoVar) (es : List UEv) : Prop := ∀ i, UEv.refer i v ∉ es

end Jsonutils
