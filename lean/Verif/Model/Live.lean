import Verif.Model.Access
import Verif.Model.Dict
import Verif.Model.Marshal

/-!
# References with a live node: jsonpointer.go

In what `Marshal` returns, a reference (`sJSONPointer`) holds the dictionary it refers to in its field `node`
(jsonpointer.go:44-49), and its methods act on that dictionary.  (In what `Parse` returns, `node` is never set, which is the case
treated in `Model/Access`.)

`D id` is the dictionary held by the references with id `id`, if any.
-/

namespace Jsonutils

mutual
/-- jsonpointer.go:44-49: the dictionary that was given to pointer `id`. Simplification: it is looked up in the result, so a
dictionary that was dropped there because another field has the same key is not found. -/
def MJ.nodeOf (id : Nat) : MJ → Option MJ
  | .arr xs => MJ.nodeOfs id xs
  | .dict marks kvs => if marks.contains id then some (.dict marks kvs) else MJ.nodeOff id kvs
  | _ => none
def MJ.nodeOfs (id : Nat) : List MJ → Option MJ
  | [] => none
  | x :: xs => (x.nodeOf id).or (MJ.nodeOfs id xs)
def MJ.nodeOff (id : Nat) : List (Bytes × MJ) → Option MJ
  | [] => none
  | (_, x) :: xs => (x.nodeOf id).or (MJ.nodeOff id xs)
end

/-- marshal.go:246-261 `Marshal` (oe) and 415-430 `MarshalAll` (¬oe): the document and the dictionaries its references hold. -/
def marshalLive (ord : SMap Bytes → List (Bytes × Bytes)) (pick : List Nat → Nat) (oe : Bool) (h : List GV) (fuel : Nat) (v : GV) :
    Option (J × (Int → Option J)) :=
  match gmar ord oe h fuel v .init none with
  | none => none
  | some (_, none) => some (.null, fun _ => none)
  | some (s, some m) => some (m.finish s.live pick, fun id => (m.nodeOf id.toNat).map (·.finish s.live pick))

variable (D : Int → Option J)

/-- jsonpointer.go:107-112 `getNode`; other documents are themselves. -/
def J.live : J → J
  | .ptr id => (D id).getD .null
  | v => v

/-- `Get(keys...)`: jsonpointer.go:122-124; access.go:205-240 passes only through `*JSONDict`. -/
def J.getL (v : J) (keys : List Bytes) : Res J := (v.live D).get keys

/-- `GetAt(i, keys...)`: jsonpointer.go:130-132. -/
def J.getAtL (v : J) (i : Int) (keys : List Bytes) : Res J := (v.live D).getAt i keys

/-- `GetMap(keys...)`: jsonpointer.go:146-148; access.go:254-270 requires a `*JSONDict` at the end of the path. -/
def J.getMapL (v : J) (keys : List Bytes) : Res (SMap J) := (v.live D).getMap keys

/-- `GetArray(keys...)`: jsonpointer.go:150-152, access.go:317-331: the method of what is at the end of the path. -/
def J.getArrayL (v : J) (keys : List Bytes) : Res (List J) :=
  match v.live D with
  | .dict id kvs => match dictGet smGet id kvs keys with
    | .ok o => (o.live D).array0
    | .err e => .err e
    | .diverge => .diverge
  | w => w.getArray keys

/-- `GetString(keys...)`: jsonpointer.go:158-160, access.go:242-252. -/
def J.getStringL (v : J) (keys : List Bytes) : Res Bytes :=
  match v.live D with
  | .dict id kvs => match keys with
    | [] => .ok (J.dict id kvs).string0
    | _ => match dictGet smGet id kvs keys with
      | .ok o => .ok (o.live D).string0
      | .err e => .err e
      | .diverge => .diverge
  | w => w.getString keys

/-- `Int`, `Float`, `Bool`: jsonpointer.go:134-144; compare `J.scalarAcc`. -/
def J.scalarAccL {α} (own : J → Option (Res α)) : Nat → J → List Bytes → Res α
  | 0, _, _ => .diverge
  | f + 1, v, keys => match v.live D with
    | .dict id kvs => match dictGet smGet id kvs keys with
      | .ok o => J.scalarAccL own f o []
      | .err e => .err e
      | .diverge => .diverge
    | w => match own w with
      | none => .err .unsupported
      | some r => match keys with
        | [] => r
        | _ => .err .outOfKeyRange

/-- `IsZero()`: jsonpointer.go:79-84. -/
def J.isZeroL (v : J) : Bool := (v.live D).isZero

/-- Results of a list of calls, `none` if one of them does not return. -/
def allSome {α β : Type} (f : α → Option β) : List α → Option (List β)
  | [] => some []
  | x :: xs => match f x, allSome f xs with
    | some y, some ys => some (y :: ys)
    | _, _ => none

/-- `Interface()`: interface.go:21-58, jsonpointer.go:170-172. `none` = has not returned within that many nested calls. -/
def J.interfaceL : Nat → J → Option Iface
  | 0, _ => none
  | n + 1, v => match v with
    | .null => some .nil
    | .bool b => some (.bool b)
    | .int n => some (.int n)
    | .float x _ => some (.float x)
    | .str s => some (.str s)
    | .arr xs => (allSome (J.interfaceL n) xs).map .slice
    | .dict _ kvs => (allSome (fun p : Bytes × J => (J.interfaceL n p.2).map (fun i => (p.1, i))) kvs).map .map
    | .ptr id => J.interfaceL n ((D id).getD .null)

mutual
/-- `v.Equals(w)`: equals.go:21-99, jsonpointer.go:166-168. The argument must be a `*JSONDict` for a dictionary, and so on; a
reference asks the dictionary it holds, with the same argument. (The loop of equals.go:33-41 runs over the common keys.) -/
def J.equalsL (v : J) : J → Bool
  | .arr ys => match v.live D with
    | .arr xs => xs.length == ys.length && J.equalsLs xs ys
    | _ => false
  | .dict _ kvs2 => match v.live D with
    | .dict _ kvs => kvs.length == kvs2.length && (smSplit kvs kvs2).1.length == 0 && (smSplit kvs kvs2).2.2.2.length == 0 && J.equalsLf kvs kvs2
    | _ => false
  | w => (v.live D).equals w
def J.equalsLs : List J → List J → Bool
  | x :: xs, y :: ys => J.equalsL x y && J.equalsLs xs ys
  | [], _ => true
  | _ :: _, [] => false
def J.equalsLf (m : SMap J) : List (Bytes × J) → Bool
  | [] => true
  | (k, y) :: kvs => (match smGet m k with
    | some x => J.equalsL x y
    | none => true) && J.equalsLf m kvs
end

end Jsonutils
