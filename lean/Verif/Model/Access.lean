import Verif.Model.Print

/-!
# Accessors and path operations: access.go, iszero.go, length.go, size.go, interface.go, jsonpointer.go:79-176

A dictionary is given by its node id and entries (`JSONDict.nodeId`, `JSONDict.data`); an operation that mutates the
dictionary returns the new entries.  `.null` is the shared instance `JSONNull` (the comparison `o == JSONNull` at
access.go:115, utils.go:107, 141 is pointer equality; other instances of `JSONValue` are produced only by `DeepCopy`,
see `Model/Heap`).
-/

namespace Jsonutils

/-- Sentinel errors of errors.go; `errors.Wrap(err, "Get")` keeps the cause and is not represented. -/
inductive AErr where
  | unsupported       -- ErrUnsupported
  | outOfKeyRange     -- ErrOutOfKeyRange
  | outOfIndexRange   -- ErrOutOfIndexRange
  | invalidDict       -- ErrInvalidJsonDict
  | invalidArray      -- ErrInvalidJsonArray
  | invalidInt        -- ErrInvalidJsonInt
  | invalidFloat      -- ErrInvalidJsonFloat
  | invalidBool       -- ErrInvalidJsonBoolean
  | keyNotFound       -- ErrJsonDictKeyNotFound
  | invalidString     -- ErrInvalidJsonString
  | failInsert        -- ErrJsonDictFailInsert
  deriving DecidableEq, Repr, Inhabited

/-- A Go call: returns a value, returns an error, or never returns. -/
inductive Res (α : Type) where
  | ok (a : α)
  | err (e : AErr)
  | diverge
  deriving Repr, DecidableEq

/-- access.go:213-240 `_get`, the loop over a non-empty key list; `look` is `data.Get` or `data.GetIgnoreCase`. -/
def getLoop (look : SMap J → Bytes → Option J) : SMap J → List Bytes → Res J
  | _, [] => .err .outOfKeyRange
  | kvs, [k] => match look kvs k with
    | some v => .ok v
    | none => .err .keyNotFound
  | kvs, k :: k2 :: ks => match look kvs k with
    | some (.dict _ kvs') => getLoop look kvs' (k2 :: ks)
    | some _ => .err .invalidDict
    | none => .err .keyNotFound

/-- access.go:205-216 `JSONDict.Get` / `GetIgnoreCases` on a dictionary value. -/
def dictGet (look : SMap J → Bytes → Option J) (id : Int) (kvs : SMap J) (keys : List Bytes) : Res J :=
  match keys with
  | [] => .ok (.dict id kvs)
  | _ => getLoop look kvs keys

/-- `Get(keys...)`: access.go:205-207 (dict), 150-152 (JSONValue, promoted to every other kind),
jsonpointer.go:122-124 (a pointer without node acts as null). -/
def J.get (v : J) (keys : List Bytes) : Res J :=
  match v with
  | .dict id kvs => dictGet smGet id kvs keys
  | _ => .err .unsupported

/-- `GetIgnoreCases(keys...)`: access.go:209-211, 154-156, jsonpointer.go:126-128. -/
def J.getIgnoreCases (fold : Bytes → Bytes) (v : J) (keys : List Bytes) : Res J :=
  match v with
  | .dict id kvs => dictGet (smGetFold fold) id kvs keys
  | _ => .err .unsupported

/-- `Contains(keys...)`: access.go:189-195, 142-144, jsonpointer.go:114-116. -/
def J.contains (v : J) (keys : List Bytes) : Bool :=
  match v.get keys with
  | .ok _ => true
  | _ => false

/-- `ContainsIgnoreCases(keys...)`: access.go:197-203, 146-148, jsonpointer.go:118-120. -/
def J.containsIgnoreCases (fold : Bytes → Bytes) (v : J) (keys : List Bytes) : Bool :=
  match v.getIgnoreCases fold keys with
  | .ok _ => true
  | _ => false

/-- `GetString()` without keys: access.go:158-163 (null), 242-252 (dict), 286-291 (array), 375-380 (int), 421-426
(float), 461-466 (bool), 504-509 (string), jsonpointer.go:158-160. -/
def J.string0 : J → Bytes
  | .str s => s
  | .ptr _ => b!"null"
  | v => v.toBytes

/-- `GetString(keys...)`: the same functions with keys. -/
def J.getString (v : J) (keys : List Bytes) : Res Bytes :=
  match v, keys with
  | v, [] => .ok v.string0
  | .dict id kvs, keys => match dictGet smGet id kvs keys with
    | .ok o => .ok o.string0
    | .err e => .err e
    | .diverge => .diverge
  | _, _ => .err .outOfKeyRange

/-- `strings.EqualFold(s, word)` for a lower-case ASCII word: Unicode simple folding equates each letter with its upper
case, and in addition `s` with U+017F (bytes C5 BF) and `k` with U+212A (bytes E2 84 AA). -/
def foldsTo : Bytes → Bytes → Bool
  | [], s => s.isEmpty
  | w :: ws, s => match s with
    | [] => false
    | c :: r =>
      if c = w ∨ lowerByte c = w then foldsTo ws r
      else match c, r with
        | 0xC5, 0xBF :: r' => w == 115 && foldsTo ws r'
        | 0xE2, 0x84 :: 0xAA :: r' => w == 107 && foldsTo ws r'
        | _, _ => false

/-- access.go:448-459 the text test of `JSONString.Bool`. -/
def boolOfText (s : Bytes) : Res Bool :=
  if foldsTo b!"true" s || foldsTo b!"on" s || foldsTo b!"yes" s || s == b!"1" then .ok true
  else if foldsTo b!"false" s || foldsTo b!"off" s || foldsTo b!"no" s || s == b!"0" then .ok false
  else .err .invalidBool

/-- access.go:363-373 `JSONString.Int` without keys. -/
def intOfText (s : Bytes) : Res Int :=
  match parseInt s with
  | some n => .ok n
  | none => .err .invalidInt

/-- access.go:409-419 `JSONString.Float` without keys. -/
def floatOfText (s : Bytes) : Res GoFloat :=
  match parseFloat s with
  | some x => .ok x
  | none => .err .invalidFloat

/-- The common shape of `Int`, `Float`, `Bool`: kinds without an own method use the promoted `JSONValue` method
(`ErrUnsupported`, whatever the keys); kinds with an own method reject keys; a dictionary does `Get(keys...)` and calls
the method of the result WITHOUT keys — which for a dictionary is `Get()` = itself again, hence the fuel: the Go call
recurses forever. -/
def J.scalarAcc {α} (own : J → Option (Res α)) : Nat → J → List Bytes → Res α
  | 0, _, _ => .diverge
  | f + 1, .dict id kvs, keys => match dictGet smGet id kvs keys with
    | .ok o => J.scalarAcc own f o []
    | .err e => .err e
    | .diverge => .diverge
  | _ + 1, v, keys => match own v with
    | none => .err .unsupported
    | some r => match keys with
      | [] => r
      | _ => .err .outOfKeyRange

/-- `Int(keys...)`: access.go:169-171, 356-373, 382-393, jsonpointer.go:134-136. -/
def J.int? (f : Nat) (v : J) (keys : List Bytes) : Res Int :=
  J.scalarAcc (fun v => match v with
    | .int n => some (.ok n)
    | .str s => some (intOfText s)
    | _ => none) f v keys

/-- `Float(keys...)`: access.go:173-175, 395-419, 428-439, jsonpointer.go:138-140. -/
def J.float? (f : Nat) (v : J) (keys : List Bytes) : Res GoFloat :=
  J.scalarAcc (fun v => match v with
    | .float x _ => some (.ok x)
    | .int n => some (.ok (floatOfInt n))
    | .str s => some (floatOfText s)
    | _ => none) f v keys

/-- `Bool(keys...)`: access.go:177-179, 441-459, 468-479, jsonpointer.go:142-144. -/
def J.bool? (f : Nat) (v : J) (keys : List Bytes) : Res Bool :=
  J.scalarAcc (fun v => match v with
    | .bool b => some (.ok b)
    | .str s => some (boolOfText s)
    | _ => none) f v keys

/-- access.go:489-501: the layouts tried in turn (`timeutils.ParseTimeStr`, then four layouts of package time: arbitrary
functions here). -/
def timeOfText {T : Type} : List (Bytes → Option T) → Bytes → Res T
  | [], _ => .err .unsupported
  | p :: ps, s => match p s with
    | some t => .ok t
    | none => timeOfText ps s

/-- `GetTime(keys...)`: access.go:481-502, 511-521, jsonpointer.go:154-156. -/
def J.getTime {T : Type} (layouts : List (Bytes → Option T)) (v : J) (keys : List Bytes) : Res T :=
  match v with
  | .str s => match keys with
    | [] => timeOfText layouts s
    | _ => .err .outOfKeyRange
  | .dict id kvs => match dictGet smGet id kvs keys with
    | .ok (.str s) => timeOfText layouts s
    | .ok _ => .err .invalidString
    | .err e => .err e
    | .diverge => .diverge
  | _ => .err .unsupported

/-- `GetMap(keys...)`: access.go:181-183, 254-270, jsonpointer.go:146-148; the returned Go map is given by its entries in key order. -/
def J.getMap (v : J) (keys : List Bytes) : Res (SMap J) :=
  match v with
  | .dict id kvs => match dictGet smGet id kvs keys with
    | .ok (.dict _ kvs') => .ok kvs'
    | .ok _ => .err .invalidDict
    | .err e => .err e
    | .diverge => .diverge
  | _ => .err .unsupported

/-- `GetArray()` without keys of a non-dictionary: access.go:185-187, 305-315, 333-354, jsonpointer.go:150-152. -/
def J.array0 : J → Res (List J)
  | .arr xs => .ok xs
  | .null => .err .unsupported
  | .ptr _ => .err .unsupported
  | .dict _ _ => .err .invalidArray
  | v => .ok [v]

/-- `GetArray(keys...)`: access.go:185-187, 305-354. -/
def J.getArray (v : J) (keys : List Bytes) : Res (List J) :=
  match v with
  | .dict id kvs => match dictGet smGet id kvs keys with
    | .ok o => o.array0
    | .err e => .err e
    | .diverge => .diverge
  | .null => .err .unsupported
  | .ptr _ => .err .unsupported
  | v => match keys with
    | [] => v.array0
    | _ => .err .outOfKeyRange

/-- access.go:272-284 `JSONArray.GetAt(i)` without keys. -/
def arrGetAt (xs : List J) (i : Int) : Res J :=
  let i := if i < 0 then (xs.length : Int) + i else i
  if 0 ≤ i ∧ i < xs.length then
    match xs[i.toNat]? with
    | some x => .ok x
    | none => .diverge      -- unreachable: index in range (C23 proves it)
  else .err .outOfIndexRange

/-- `GetAt(i, keys...)`: access.go:165-167, 272-303, jsonpointer.go:130-132. -/
def J.getAt (v : J) (i : Int) (keys : List Bytes) : Res J :=
  match v with
  | .arr xs => match keys with
    | [] => arrGetAt xs i
    | _ => .err .outOfKeyRange
  | .dict id kvs => match dictGet smGet id kvs keys with
    | .ok (.arr xs) => arrGetAt xs i
    | .ok _ => .err .invalidArray
    | .err e => .err e
    | .diverge => .diverge
  | _ => .err .unsupported

/-- access.go:108-130 `JSONDict.Add(o, keys...)`: new entries and the returned error.  On an error nothing has been
changed: only missing or null levels are created, and below a created (empty) level no error can occur. -/
def dictAdd (kvs : SMap J) (o : J) : List Bytes → SMap J × Option AErr
  | [] => (kvs, none)
  | [k] => (smAdd kvs k o, none)
  | k :: k2 :: ks =>
    let kvs1 : SMap J := match smGet kvs k with
      | none => smAdd kvs k (.dict 0 [])
      | some .null => smAdd kvs k (.dict 0 [])
      | some _ => kvs
    match smGet kvs1 k with
    | some (.dict id sub) =>
      let r := dictAdd sub o (k2 :: ks)
      (smAdd kvs1 k (.dict id r.1), r.2)
    | some _ => (kvs1, some .invalidDict)
    | none => (kvs1, some .failInsert)

/-- access.go:80-82 `Remove`. -/
def dictRemove (kvs : SMap J) (k : Bytes) : SMap J × Bool := smDelete kvs k

/-- access.go:84-96 `RemoveIgnoreCase`: repeat until nothing is removed; `none` = does not terminate within the fuel. -/
def dictRemoveFold (fold : Bytes → Bytes) : Nat → SMap J → Bytes → Bool → Option (SMap J × Bool)
  | 0, _, _, _ => none
  | f + 1, kvs, k, removed =>
    let d := smDeleteFold fold kvs k
    if d.2 then dictRemoveFold fold f d.1 k true else some (d.1, removed)

/-- access.go:132-134 `JSONArray.SetAt(idx, obj)`; `none` = index out of range panic. -/
def arrSetAt (xs : List J) (i : Int) (o : J) : Option (List J) :=
  if 0 ≤ i ∧ i < xs.length then some (xs.set i.toNat o) else none

/-- access.go:136-140 `JSONArray.Add(objs...)`. -/
def arrAdd (xs objs : List J) : List J := xs ++ objs

/-- `IsZero()`: iszero.go:17-43, jsonpointer.go:79-84. -/
def J.isZero : J → Bool
  | .null => true
  | .bool b => b == false
  | .int n => n == 0
  | .float x _ => x.feq (.fin false 0 0)
  | .str s => s.length == 0
  | .dict _ kvs => kvs.length == 0
  | .arr xs => xs.length == 0
  | .ptr _ => true

/-- `Length()`: length.go:17-27 (string, dict, array; other kinds have no such method). -/
def J.length? : J → Option Nat
  | .str s => some s.length
  | .dict _ kvs => some kvs.length
  | .arr xs => some xs.length
  | _ => none

/-- A Go `interface{}` value as produced by `Interface()`; a `map[string]interface{}` is given by its entries in key
order. -/
inductive Iface where
  | nil
  | bool (b : Bool)
  | int (n : Int)
  | float (x : GoFloat)
  | str (s : Bytes)
  | slice (xs : List Iface)
  | map (kvs : List (Bytes × Iface))
  deriving Inhabited, Repr

mutual
/-- `Interface()`: interface.go:21-58, jsonpointer.go:170-172. -/
def J.interface : J → Iface
  | .null => .nil
  | .bool b => .bool b
  | .int n => .int n
  | .float x _ => .float x
  | .str s => .str s
  | .arr xs => .slice (J.interfaces xs)
  | .dict _ kvs => .map (J.interfacef kvs)
  | .ptr _ => .nil
def J.interfaces : List J → List Iface
  | [] => []
  | x :: xs => x.interface :: J.interfaces xs
def J.interfacef : List (Bytes × J) → List (Bytes × Iface)
  | [] => []
  | (k, x) :: kvs => (k, x.interface) :: J.interfacef kvs
end

end Jsonutils
