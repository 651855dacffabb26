import Verif.Model.Url
import Verif.Model.Dict

/-!
# querystring.go
-/

namespace Jsonutils

/-- Causes of the errors of querystring.go. -/
inductive QErr where
  | badQuery          -- url.ParseQuery failed
  | nilInput          -- ErrNilInputField: a key without values
  | outOfIndexRange   -- ErrOutOfIndexRange
  | typeMismatch      -- ErrTypeMismatch
  deriving DecidableEq, Repr

/-- querystring.go:29-36: the object for a leaf. -/
def queryLeaf : List Bytes → Except QErr J
  | [] => .error .nilInput
  | [v] => .ok (.str v)
  | vs => .ok (newStringArray vs)

/-- querystring.go:28-84 `addQueryStringSeg(body, segs, val)`. First component: the object `body` points to after the
call (`none` iff it was nil); second component: what the call returns. The calls at lines 58 and 69 discard what the
recursive call returns, but keep its effect on the object. -/
def addSeg : List TextNumber → Option J → List Bytes → Option J × Except QErr J
  | [], body, val => (body, queryLeaf val)
  | s :: segs, body, val =>
    let cur : J := match body with
      | some b => b
      | none => if s.isNumber && s.number == 0 then .arr [] else .dict 0 []
    match cur with
    | .dict id kvs =>
      let key := s.toText
      match smGet kvs key with
      | none => match (addSeg segs none val).2 with
        | .error e => (body, .error e)
        | .ok next => let b := J.dict id (smAdd kvs key next); (body.map fun _ => b, .ok b)
      | some next =>
        let next' := ((addSeg segs (some next) val).1).getD next
        let b := J.dict id (smAdd kvs key next'); (body.map fun _ => b, .ok b)
    | .arr xs =>
      let index := s.number
      if index < xs.length then
        match arrGetAt xs index with
        | .ok next =>
          let next' := ((addSeg segs (some next) val).1).getD next
          let i := if index < 0 then (xs.length : Int) + index else index
          let b := J.arr (xs.set i.toNat next'); (body.map fun _ => b, .ok b)
        | _ => (body, .error .outOfIndexRange)
      else if (xs.length : Int) = index then
        match (addSeg segs none val).2 with
        | .error e => (body, .error e)
        | .ok next => let b := J.arr (xs ++ [next]); (body.map fun _ => b, .ok b)
      else (body, .error .outOfIndexRange)
    | _ => (body, .error .typeMismatch)

/-- querystring.go:97-102: the loop over the sorted keys. -/
def addAllSegs (m : Values) : List (List TextNumber) → J → Except QErr J
  | [], d => .ok d
  | segs :: rest, d => match addSeg segs (some d) (valuesGet m (segments2string segs)) with
    | (_, .error e) => .error e
    | (d', .ok _) => addAllSegs m rest (d'.getD d)

/-- querystring.go:86-113 `parseQueryString` and `ParseQueryString(str)`. The keys of the Go map come in an arbitrary
order before they are sorted; here they come in order of first appearance (C29 shows that the order is immaterial). -/
def parseQueryString (str : Bytes) : Except QErr J :=
  match parseQuery str with
  | none => .error .badQuery
  | some m => addAllSegs m (sortSegs (m.map fun kv => string2Segments kv.1)) (.dict 0 [])

/-- querystring.go:115-125 `simpleQueryString`. -/
def simpleQueryString (key val : Bytes) : Bytes :=
  if 0 < key.length ∧ 0 < val.length then queryEscape key ++ b!"=" ++ queryEscape val
  else if 0 < val.length then queryEscape val
  else if 0 < key.length then queryEscape key
  else []

/-- querystring.go:150-153, 164-166: `key.k`, or `k` if `key` is empty. -/
def subKey (key k : Bytes) : Bytes := if 0 < key.length then key ++ b!"." ++ k else k

mutual
/-- `_queryString(key)`: querystring.go:127-170 and jsonpointer.go:103-105. -/
def J.queryStr : J → Bytes → Bytes
  | .null, key => simpleQueryString key []
  | .str s, key => simpleQueryString key s
  | .arr xs, key => joinWith b!"&" (J.queryStrs xs key 0)
  | .dict _ kvs, key => joinWith b!"&" (J.queryStrf kvs key)
  | .ptr _, _ => []
  | .bool b, key => simpleQueryString key (J.bool b).toBytes
  | .int n, key => simpleQueryString key (J.int n).toBytes
  | .float x bit, key => simpleQueryString key (J.float x bit).toBytes
/-- querystring.go:148-156. -/
def J.queryStrs : List J → Bytes → Nat → List Bytes
  | [], _, _ => []
  | x :: xs, key, i => x.queryStr (subKey key (intDec i)) :: J.queryStrs xs key (i + 1)
/-- querystring.go:160-169. -/
def J.queryStrf : List (Bytes × J) → Bytes → List Bytes
  | [], _ => []
  | (k, x) :: kvs, key => x.queryStr (subKey key k) :: J.queryStrf kvs key
end

/-- `QueryString()`: querystring.go:172-178, jsonpointer.go:99-101. `JSONValue.QueryString` is promoted to every kind but
`JSONDict`, and calls the `_queryString` of the embedded `JSONValue`, not that of the outer object. -/
def J.queryString : J → Bytes
  | .dict id kvs => (J.dict id kvs).queryStr []
  | _ => simpleQueryString [] []

/-- querystring.go:180-191 `QueryBoolean(query, key, defVal)`; `none` = a nil `query`. `toBool` is
`yunion.io/x/pkg/utils.ToBool` (external). -/
def queryBoolean (toBool : Bytes → Bool) (query : Option J) (key : Bytes) (defVal : Bool) : Bool :=
  match query with
  | none => defVal
  | some q => match q.get [key] with
    | .ok v => match v.getString [] with
      | .ok s => toBool s
      | _ => toBool []
    | _ => defVal

end Jsonutils
