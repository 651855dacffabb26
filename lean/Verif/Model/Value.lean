import Verif.Model.Strconv
import Verif.Model.SortedMap

/-!
# JSON documents
-/

namespace Jsonutils

/-- A `JSONObject`: jsonutils.go:64-105 (JSONValue, JSONDict, JSONArray, JSONString, JSONInt, JSONFloat, JSONBool)
and jsonpointer.go:28-31 (sJSONPointer).

Simplifications: documents are immutable trees here (aliasing is the subject of `Model/Heap`); `int` is an
unbounded integer whose int64 range is part of `J.WF`; `ptr` is a pointer whose `node` is nil, the only kind
`Parse` creates (`sJsonParseSession` never fills `node` in). -/
inductive J where
  | null
  | bool (b : Bool)
  | int (n : Int)
  | float (x : GoFloat) (bit : Nat)
  | str (s : Bytes)
  | arr (xs : List J)
  | dict (nodeId : Int) (kvs : List (Bytes × J))
  | ptr (nodeId : Int)
  deriving Inhabited, Repr

/-- jsonpointer.go:25 `jsonPointerKey`. -/
def jsonPointerKey : Bytes := b!"___jnid_"

/-- jsonutils.go:68-70 are the shared instances for null, true and false. access.go:48-74 constructors. -/
def newString (s : Bytes) : J := .str s
def newInt (n : Int) : J := .int n
def newFloat64 (x : GoFloat) : J := .float x 64
def newFloat32 (x : GoFloat) : J := .float x 32
def newBool (b : Bool) : J := .bool b
/-- access.go:40-46 `NewArray`. -/
def newArray (xs : List J) : J := .arr xs
/-- access.go:32-38 `NewDict(pairs...)`: successive `Set`s. -/
def newDict (ps : List (Bytes × J)) : J := .dict 0 (ps.foldl (fun m p => smAdd m p.1 p.2) [])

mutual
/-- Well-formed documents: what the API can build.  Dictionary keys strictly increasing, integers in int64,
floats canonical. -/
def J.WF : J → Prop
  | .int n => InI64 n
  | .float x _ => x.Canonical
  | .arr xs => J.WFs xs
  | .dict _ kvs => SMap.Sorted kvs ∧ J.WFf kvs
  | _ => True
def J.WFs : List J → Prop
  | [] => True
  | x :: xs => J.WF x ∧ J.WFs xs
def J.WFf : List (Bytes × J) → Prop
  | [] => True
  | (_, x) :: xs => J.WF x ∧ J.WFf xs
end

end Jsonutils
