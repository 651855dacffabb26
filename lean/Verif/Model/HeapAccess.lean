import Verif.Model.HeapRead
import Verif.Model.Query

/-!
# The remaining readers on documents in memory, nil variables included

`GetString`, `Int`, `Float`, `Bool`, `GetTime`, `GetArray`, `GetIgnoreCases`, `ContainsIgnoreCases`, `IsZero`, `Length`, `QueryString`.
The same conventions and simplifications as in `Model/HeapRead`.
-/

namespace Jsonutils

/-- How a reader with keys ends: it returns a value or an error, panics, or has not returned within the fuel. -/
inductive ARes (α : Type) where
  | ok (a : α)
  | err (e : AErr)
  | panic
  | fuel
  deriving DecidableEq, Repr

/-- `GetString()` without keys of the object in a variable: access.go:158-163, 242-252, 286-291, 375-380, 421-426, 461-466, 504-509,
jsonpointer.go:158-160 (a reference without node is `JSONNull`). -/
def string0H (f : Nat) (h : Heap) (r : Ref) : ARes Bytes :=
  match r with
  | none => .panic
  | some a => match h[a]? with
    | none => .panic
    | some (.str s) => .ok s
    | some (.ptr _) => .ok b!"null"
    | some _ => match textH f h (some a) with
      | .ok t => .ok t
      | .panic => .panic
      | .fuel => .fuel

/-- `GetString(keys...)`: the same functions with keys. -/
def getStringH (f : Nat) (h : Heap) (r : Ref) (keys : List Bytes) : ARes Bytes :=
  match keys with
  | [] => string0H f h r
  | _ => match r with
    | none => .panic
    | some a => match h[a]? with
      | none => .panic
      | some (.dict _ _) => match getH h (some a) keys with
        | .ok b => string0H f h b
        | .err e => .err e
        | .panic => .panic
      | some _ => .err .outOfKeyRange

/-- The common shape of `Int`, `Float`, `Bool` (see `J.scalarAcc`); `own` is the method of the other kinds. -/
def scalarAccH {α} (own : Obj → Option (Res α)) : Nat → Heap → Ref → List Bytes → ARes α
  | _, _, none, _ => .panic
  | 0, _, some _, _ => .fuel
  | f + 1, h, some a, keys => match h[a]? with
    | none => .panic
    | some (.dict _ _) => match getH h (some a) keys with
      | .ok b => scalarAccH own f h b []
      | .err e => .err e
      | .panic => .panic
    | some o => match own o with
      | none => .err .unsupported
      | some r => match keys with
        | [] => match r with
          | .ok x => .ok x
          | .err e => .err e
          | .diverge => .fuel       -- does not occur: the methods below return
        | _ => .err .outOfKeyRange

/-- `Int(keys...)`: access.go:169-171, 356-373, 382-393, jsonpointer.go:134-136. -/
def intH (f : Nat) (h : Heap) (r : Ref) (keys : List Bytes) : ARes Int :=
  scalarAccH (fun o => match o with
    | .int n => some (.ok n)
    | .str s => some (intOfText s)
    | _ => none) f h r keys

/-- `Float(keys...)`: access.go:173-175, 395-419, 428-439, jsonpointer.go:138-140. -/
def floatH (f : Nat) (h : Heap) (r : Ref) (keys : List Bytes) : ARes GoFloat :=
  scalarAccH (fun o => match o with
    | .float x _ => some (.ok x)
    | .int n => some (.ok (floatOfInt n))
    | .str s => some (floatOfText s)
    | _ => none) f h r keys

/-- `Bool(keys...)`: access.go:177-179, 441-459, 468-479, jsonpointer.go:142-144. -/
def boolH (f : Nat) (h : Heap) (r : Ref) (keys : List Bytes) : ARes Bool :=
  scalarAccH (fun o => match o with
    | .bool b => some (.ok b)
    | .str s => some (boolOfText s)
    | _ => none) f h r keys

/-- `GetTime(keys...)`: access.go:481-502, 511-521, jsonpointer.go:154-156; `layouts` as in `J.getTime`. -/
def getTimeH {T : Type} (layouts : List (Bytes → Option T)) (h : Heap) (r : Ref) (keys : List Bytes) : GRes T :=
  let text := fun s => match timeOfText layouts s with
    | .ok t => GRes.ok t
    | .err e => .err e
    | .diverge => .err .unsupported     -- does not occur
  match r with
  | none => .panic
  | some a => match h[a]? with
    | none => .panic
    | some (.str s) => match keys with
      | [] => text s
      | _ => .err .outOfKeyRange
    | some (.dict _ _) => match getH h (some a) keys with
      | .ok (some b) => match h[b]? with
        | some (.str s) => text s
        | _ => .err .invalidString
      | .ok none => .err .invalidString       -- does not occur: `Get` panics on nil
      | .err e => .err e
      | .panic => .panic
    | some _ => .err .unsupported

/-- `GetArray()` without keys of the object at `a`: access.go:185-187, 305-315, 333-354, jsonpointer.go:150-152.  The result for a scalar is
the object itself. -/
def array0H (h : Heap) (a : Addr) : GRes (List Ref) :=
  match h[a]? with
  | none => .panic
  | some (.arr xs) => .ok xs
  | some .null => .err .unsupported
  | some (.ptr _) => .err .unsupported
  | some (.dict _ _) => .err .invalidArray
  | some _ => .ok [some a]

/-- `GetArray(keys...)`: access.go:185-187, 305-354. -/
def getArrayH (h : Heap) (r : Ref) (keys : List Bytes) : GRes (List Ref) :=
  match r with
  | none => .panic
  | some a => match h[a]? with
    | none => .panic
    | some (.dict _ _) => match getH h (some a) keys with
      | .ok (some b) => array0H h b
      | .ok none => .panic                    -- does not occur
      | .err e => .err e
      | .panic => .panic
    | some .null => .err .unsupported
    | some (.ptr _) => .err .unsupported
    | some _ => match keys with
      | [] => array0H h a
      | _ => .err .outOfKeyRange

/-- access.go:213-240 `_get(false, keys)`, the loop over a non-empty key list. -/
def getFoldLoopH (fold : Bytes → Bytes) (h : Heap) : SMap Ref → List Bytes → GRes Ref
  | _, [] => .err .outOfKeyRange
  | kvs, [k] => match smGetFold fold kvs k with
    | none => .err .keyNotFound
    | some none => .panic
    | some (some b) => .ok (some b)
  | kvs, k :: k2 :: ks => match smGetFold fold kvs k with
    | none => .err .keyNotFound
    | some none => .err .invalidDict
    | some (some b) => match h[b]? with
      | some (.dict _ kvs') => getFoldLoopH fold h kvs' (k2 :: ks)
      | _ => .err .invalidDict

/-- `GetIgnoreCases(keys...)`: access.go:209-211, 154-156, jsonpointer.go:126-128. -/
def getFoldH (fold : Bytes → Bytes) (h : Heap) : Ref → List Bytes → GRes Ref
  | none, _ => .panic
  | some a, keys => match h[a]? with
    | none => .panic
    | some (.dict _ kvs) => match keys with
      | [] => .ok (some a)
      | _ => getFoldLoopH fold h kvs keys
    | some _ => .err .unsupported

/-- `ContainsIgnoreCases(keys...)`: access.go:197-203, 146-148, jsonpointer.go:118-120. -/
def containsFoldH (fold : Bytes → Bytes) (h : Heap) (r : Ref) (keys : List Bytes) : GRes Bool :=
  match getFoldH fold h r keys with
  | .ok _ => .ok true
  | .err _ => .ok false
  | .panic => .panic

/-- `IsZero()`: iszero.go:17-43, jsonpointer.go:79-84 (no node). -/
def isZeroH (h : Heap) (r : Ref) : GRes Bool :=
  match r with
  | none => .panic
  | some a => match h[a]? with
    | none => .panic
    | some .null => .ok true
    | some (.bool b) => .ok (b == false)
    | some (.int n) => .ok (n == 0)
    | some (.float x _) => .ok (x.feq (.fin false 0 0))
    | some (.str s) => .ok (s.length == 0)
    | some (.dict _ kvs) => .ok (kvs.length == 0)
    | some (.arr xs) => .ok (xs.length == 0)
    | some (.ptr _) => .ok true

/-- `Length()`, `Size()`: length.go:17-27, size.go:17-23; `none` = the kind has no such method. -/
def lengthH (h : Heap) (a : Addr) : Option Nat :=
  match h[a]? with
  | some (.str s) => some s.length
  | some (.dict _ kvs) => some kvs.length
  | some (.arr xs) => some xs.length
  | _ => none

/-- querystring.go:147-155: the elements with their numbers. -/
def numbered {α} : List α → Nat → List (Nat × α)
  | [], _ => []
  | x :: xs, i => (i, x) :: numbered xs (i + 1)

/-- `_queryString(key)`: querystring.go:127-170, jsonpointer.go:103-105. -/
def queryStrH : Nat → Heap → Ref → Bytes → CRes Bytes
  | _, _, none, _ => .panic
  | 0, _, some _, _ => .fuel
  | f + 1, h, some a, key => match h[a]? with
    | none => .panic
    | some .null => .ok (simpleQueryString key [])
    | some (.str s) => .ok (simpleQueryString key s)
    | some (.bool b) => .ok (simpleQueryString key (J.bool b).toBytes)
    | some (.int n) => .ok (simpleQueryString key (J.int n).toBytes)
    | some (.float x bit) => .ok (simpleQueryString key (J.float x bit).toBytes)
    | some (.ptr _) => .ok []
    | some (.arr xs) => (seqH (fun e => queryStrH f h e.2 (subKey key (intDec e.1))) (numbered xs 0)).map (joinWith b!"&")
    | some (.dict _ kvs) => (seqH (fun e => queryStrH f h e.2 (subKey key e.1)) kvs).map (joinWith b!"&")

/-- `QueryString()`: querystring.go:172-178, jsonpointer.go:99-101. -/
def queryStringH (f : Nat) (h : Heap) (r : Ref) : CRes Bytes :=
  match r with
  | none => .panic
  | some a => match h[a]? with
    | none => .panic
    | some (.dict _ _) => queryStrH f h (some a) []
    | some _ => .ok (simpleQueryString [] [])

end Jsonutils
