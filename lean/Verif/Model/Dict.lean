import Verif.Model.Access

/-!
# Dictionary algebra, equality, copying: dict.go, equals.go, clone.go, utils.go
-/

namespace Jsonutils

/-- dict.go:21-27 `Update(json)`: new entries of the receiver. -/
def dictUpdate (kvs : SMap J) (o : J) : SMap J :=
  match o with
  | .dict _ kvs2 => smMerge kvs kvs2
  | _ => kvs

/-- dict.go:29-35 `UpdateDefault(json)`. -/
def dictUpdateDefault (kvs : SMap J) (o : J) : SMap J :=
  match o with
  | .dict _ kvs2 => smMerge kvs2 kvs
  | _ => kvs

mutual
/-- `Equals(json)`: equals.go:21-99, jsonpointer.go:171-173.  In the dictionary case the loop visits the keys of the
receiver present in the argument; the receiver's value is the one stored with the key (`aB.Get(k)`). -/
def J.equals : J → J → Bool
  | .null, w => match w with
    | .null => true
    | _ => false
  | .bool b, w => match w with
    | .bool b' => b == b'
    | _ => false
  | .int n, w => match w with
    | .int n' => n == n'
    | _ => false
  | .float x _, w => match w with
    | .float y _ => x.feq y
    | _ => false
  | .str s, w => match w with
    | .str s' => s == s'
    | _ => false
  | .arr xs, w => match w with
    | .arr ys => xs.length == ys.length && J.equalss xs ys
    | _ => false
  | .dict _ kvs, w => match w with
    | .dict _ kvs2 =>
      kvs.length == kvs2.length &&
      (smSplit kvs kvs2).1.length == 0 && (smSplit kvs kvs2).2.2.2.length == 0 &&
      J.equalsf kvs kvs2
    | _ => false
  | .ptr _, w => match w with
    | .null => true
    | _ => false
/-- equals.go:53-57; `arr2.data[i]` beyond the end cannot happen (equal lengths). -/
def J.equalss : List J → List J → Bool
  | [], _ => true
  | _ :: _, [] => false
  | x :: xs, y :: ys => x.equals y && J.equalss xs ys
/-- equals.go:33-41. -/
def J.equalsf : List (Bytes × J) → SMap J → Bool
  | [], _ => true
  | (k, x) :: kvs, m => (match smGet m k with
    | some y => x.equals y
    | none => true) && J.equalsf kvs m
end

/-- dict.go:45-55: the loop of `Diff` over the common keys; accumulates (aDiffB, aAndB). -/
def diffLoop (bA : SMap J) : SMap J → SMap J → SMap J → SMap J × SMap J
  | [], dif, same => (dif, same)
  | (k, x) :: r, dif, same => match smGet bA k with
    | some y =>
      if !x.equals y then diffLoop bA r (smAdd dif k (.arr [x, y])) same
      else diffLoop bA r dif (smAdd same k x)
    | none => diffLoop bA r dif same

/-- dict.go:37-58 `Diff(a, b)` = (aNoB, aDiffB, aAndB, bNoA). -/
def dictDiff (a b : SMap J) : SMap J × SMap J × SMap J × SMap J :=
  let s := smSplit a b
  let l := diffLoop s.2.2.1 s.2.1 [] []
  (s.1, l.1, l.2, s.2.2.2)

/-- clone.go:28-38 `CopyExcludes(excludes...)` (and `Copy`, 24-26); `utils.InStringArray` is list membership. -/
def copyExcludes (kvs : SMap J) (ks : List Bytes) : SMap J :=
  kvs.foldl (fun m kv => if ks.contains kv.1 then m else smAdd m kv.1 kv.2) []

/-- clone.go:40-50 `CopyIncludes(includes...)`. -/
def copyIncludes (kvs : SMap J) (ks : List Bytes) : SMap J :=
  kvs.foldl (fun m kv => if ks.contains kv.1 then smAdd m kv.1 kv.2 else m) []

mutual
/-- clone.go:84-123 `DeepCopy(obj)` on values; `none` = the copy contains a nil (a reference pointer is not handled by
the type switch).  `ord` is the iteration order of the Go map at clone.go:113.  The node id is not copied. -/
def J.deepCopy (ord : List (Bytes × J) → List (Bytes × J)) : J → Option J
  | .arr xs => (J.deepCopys ord xs).map .arr
  | .dict _ kvs => (J.deepCopyf ord kvs).map fun l => newDict (ord l)
  | .ptr _ => none
  | v => some v
def J.deepCopys (ord : List (Bytes × J) → List (Bytes × J)) : List J → Option (List J)
  | [] => some []
  | x :: xs => match x.deepCopy ord, J.deepCopys ord xs with
    | some y, some ys => some (y :: ys)
    | _, _ => none
def J.deepCopyf (ord : List (Bytes × J) → List (Bytes × J)) : List (Bytes × J) → Option (List (Bytes × J))
  | [] => some []
  | (k, x) :: xs => match x.deepCopy ord, J.deepCopyf ord xs with
    | some y, some ys => some ((k, y) :: ys)
    | _, _ => none
end

/-! ### utils.go -/

/-- utils.go:24-30 `NewStringArray`. -/
def newStringArray (ss : List Bytes) : J := .arr (ss.map .str)

/-- utils.go:32-52 `GetStringArray` / `JSONArray2StringArray`: an element whose `GetString()` fails (never) stays "". -/
def stringArray (xs : List J) : List Bytes :=
  xs.map fun x => match x.getString [] with
    | .ok s => s
    | _ => []

/-- utils.go:83-91: the loop over "0", "1", ...; `none` = fuel exhausted. -/
def indexedStrings (kvs : SMap J) : Nat → Nat → List Bytes → Option (List Bytes)
  | 0, _, _ => none
  | f + 1, idx, acc => match J.getString (.dict 0 kvs) [intDec idx] with
    | .ok s => indexedStrings kvs f (idx + 1) (acc ++ [s])
    | _ => some acc

/-- utils.go:66-95 `GetQueryStringArray(query, key)`; a nil slice and an empty slice are both `[]`. -/
def getQueryStringArray (query : J) (key : Bytes) : Option (List Bytes) :=
  match query.get [key] with
  | .ok (.arr xs) => some (stringArray xs)
  | .ok (.str s) => some [s]
  | .ok (.dict _ kvs) => indexedStrings kvs (kvs.length + 1) 0 []
  | _ => some []

/-- Result of `CheckRequiredFields`. -/
inductive Required where
  | ok
  | notMap (e : AErr)
  | missing (field : Bytes)
  | isNil (field : Bytes)
  deriving DecidableEq, Repr

/-- utils.go:102-111. -/
def checkFields (m : SMap J) : List Bytes → Required
  | [] => .ok
  | f :: fs => match smGet m f with
    | none => .missing f
    | some .null => .isNil f
    | some _ => checkFields m fs

/-- utils.go:97-112 `CheckRequiredFields(data, fields)`. -/
def checkRequiredFields (data : J) (fields : List Bytes) : Required :=
  match data.getMap [] with
  | .ok m => checkFields m fields
  | .err e => .notMap e
  | .diverge => .notMap .unsupported   -- unreachable: getMap never diverges

/-- utils.go:119-130 `GetAnyString2(json, keys)` = (value, key); on an error `GetString` returns "". -/
def getAnyString2 (v : J) : List Bytes → Bytes × Bytes
  | [] => ([], [])
  | k :: ks => match v.getString [k] with
    | .ok s => if 0 < s.length then (s, k) else getAnyString2 v ks
    | _ => getAnyString2 v ks

/-- utils.go:139-146: the loop over prefix.0, prefix.1, ...; `none` = fuel exhausted. -/
def prefixLoop (v : J) (pre : Bytes) : Nat → Nat → List J → Option (List J)
  | 0, _, _ => none
  | f + 1, idx, acc => match v.get [pre ++ 46 :: intDec idx] with
    | .ok .null => some acc
    | .ok o => prefixLoop v pre f (idx + 1) (acc ++ [o])
    | _ => some acc

/-- utils.go:132-148 `GetArrayOfPrefix(json, prefix)`. -/
def getArrayOfPrefix (v : J) (pre : Bytes) : Option (List J) :=
  prefixLoop v pre ((match v with
    | .dict _ kvs => kvs.length
    | _ => 0) + 1) 0 []

end Jsonutils
