import Verif.Model.Heap
import Verif.Model.Print

/-!
# Reading documents in memory, nil variables included

A `JSONObject` variable inside an array or a dictionary may be nil: `NewArray(nil)`, `Set(k, nil)`, `SetAt(i, nil)`, and `DeepCopy` of a
reference pointer put nils there.  Calling a method of a nil interface panics (array elements), and so does the assertion
`v.(JSONObject)` that every dictionary method applies to the entries it reads (a nil `JSONObject` becomes a nil `interface{}` in the sorted
map); the assertions with two results (`this, ok = val.(*JSONDict)`) do not.
Simplifications: reference pointers are unresolved; pointers of a concrete type that are nil (`(*JSONDict)(nil)`) do not occur; the width
that `JSONFloat.String` writes back is `Model/SharedText`'s business.  A dangling address does not occur in Go; here it counts as nil.
-/

namespace Jsonutils

/-- The result put through a function. -/
def CRes.map {α β} (g : α → β) : CRes α → CRes β
  | .ok a => .ok (g a)
  | .panic => .panic
  | .fuel => .fuel

/-- A loop calling `g` on every element, in order; the first call that does not return ends it. -/
def seqH {α β} (g : α → CRes β) : List α → CRes (List β)
  | [] => .ok []
  | x :: xs => match g x with
    | .ok y => (seqH g xs).map (y :: ·)
    | .panic => .panic
    | .fuel => .fuel

/-- write.go:72-81: the texts of the elements with commas between them. -/
def joinElems : List Bytes → Bool → Bytes
  | [], _ => []
  | t :: ts, first => (if first then [] else [44]) ++ t ++ joinElems ts false

/-- write.go:57-68: the texts of the entries with commas between them. -/
def joinEntries : List (Bytes × Bytes) → Bool → Bytes
  | [], _ => []
  | (k, t) :: ts, first => (if first then [] else [44]) ++ quoteString k ++ 58 :: t ++ joinEntries ts false

/-- `String()` of the object in a variable: string.go:23-60, write.go:28-81, jsonpointer.go:59-69. -/
def textH : Nat → Heap → Ref → CRes Bytes
  | _, _, none => .panic
  | 0, _, some _ => .fuel
  | f + 1, h, some a => match h[a]? with
    | none => .panic
    | some .null => .ok b!"null"
    | some (.bool true) => .ok b!"true"
    | some (.bool false) => .ok b!"false"
    | some (.int n) => .ok (intDec n)
    | some (.float x bit) => .ok (formatFloat x (floatBits bit))
    | some (.str s) => .ok (quoteString s)
    | some (.ptr id) => .ok (60 :: (intDec id ++ [62]))
    | some (.arr xs) => (seqH (textH f h) xs).map fun ts => 91 :: (joinElems ts true ++ [93])
    | some (.dict id kvs) => (seqH (fun e => (textH f h e.2).map fun t => (e.1, t)) kvs).map fun ts =>
      if 0 < id then 123 :: (quoteString jsonPointerKey ++ 58 :: intDec id ++ joinEntries ts false ++ [125])
      else 123 :: (joinEntries ts true ++ [125])

/-- jsonutils.go:637-641: the elements, each on a new line. -/
def prettyElems : List Bytes → Bool → Bytes
  | [], _ => []
  | t :: ts, first => (if first then [] else [44]) ++ 10 :: (t ++ prettyElems ts false)

/-- jsonutils.go:585-607: the entries, each on a new line. -/
def prettyEntries (level : Nat) : List (Bytes × Bytes) → Bool → Bytes
  | [], _ => []
  | (k, t) :: ts, first => (if first then [] else [44]) ++ 10 :: (indent level ++ 32 :: 32 :: 34 :: (k ++ 34 :: 58 :: (t ++ prettyEntries level ts false)))

/-- jsonutils.go:597-599: the variable holds a dictionary or an array. -/
def isContainerH (h : Heap) : Ref → Bool
  | none => false
  | some a => match h[a]? with
    | some (.arr _) => true
    | some (.dict _ _) => true
    | _ => false

/-- `prettyString(level)`: jsonutils.go:371-378, 575-614, 628-650, jsonpointer.go:91-93. -/
def prettyH : Nat → Heap → Nat → Ref → CRes Bytes
  | _, _, _, none => .panic
  | 0, _, _, some _ => .fuel
  | f + 1, h, level, some a => match h[a]? with
    | some (.arr xs) => (seqH (prettyH f h (level + 1)) xs).map fun ts =>
      indent level ++ 91 :: (prettyElems ts true ++ (if xs.isEmpty then [] else 10 :: indent level) ++ [93])
    | some (.dict _ kvs) =>
      (seqH (fun e => if isContainerH h e.2 then (prettyH f h (level + 2) e.2).map fun t => (e.1, 10 :: t)
        else (textH f h e.2).map fun t => (e.1, 32 :: t)) kvs).map fun ts =>
      indent level ++ 123 :: (prettyEntries level ts true ++ (if kvs.isEmpty then [] else 10 :: indent level) ++ [125])
    | _ => (textH (f + 1) h (some a)).map fun t => indent level ++ t

/-- `Interface()`: interface.go:21-58, jsonpointer.go:170-172. -/
def interfaceH : Nat → Heap → Ref → CRes Iface
  | _, _, none => .panic
  | 0, _, some _ => .fuel
  | f + 1, h, some a => match h[a]? with
    | none => .panic
    | some .null => .ok .nil
    | some (.bool b) => .ok (.bool b)
    | some (.int n) => .ok (.int n)
    | some (.float x _) => .ok (.float x)
    | some (.str s) => .ok (.str s)
    | some (.ptr _) => .ok .nil
    | some (.arr xs) => (seqH (interfaceH f h) xs).map .slice
    | some (.dict _ kvs) => (seqH (fun e => (interfaceH f h e.2).map fun t => (e.1, t)) kvs).map .map

/-- equals.go:53-57: the loop over the elements of two arrays of the same length. -/
def equalElemsH (g : Ref → Ref → CRes Bool) : List Ref → List Ref → CRes Bool
  | [], _ => .ok true
  | _ :: _, [] => .panic                       -- index out of range: the lengths are equal
  | x :: xs, y :: ys => match g x y with
    | .ok true => equalElemsH g xs ys
    | r => r

/-- equals.go:33-41: the loop over the common keys; both values are asserted to be a `JSONObject`. -/
def equalEntriesH (g : Ref → Ref → CRes Bool) (m : SMap Ref) : SMap Ref → CRes Bool
  | [] => .ok true
  | (k, x) :: kvs => match smGet m k with
    | none => equalEntriesH g m kvs
    | some y =>
      if x.isNone || y.isNone then .panic
      else match g x y with
        | .ok true => equalEntriesH g m kvs
        | r => r

/-- `x.Equals(y)`: equals.go:21-99, jsonpointer.go:171-173.  A nil receiver panics, a nil argument is unequal to everything. -/
def equalsH : Nat → Heap → Ref → Ref → CRes Bool
  | _, _, none, _ => .panic
  | 0, _, some _, _ => .fuel
  | f + 1, h, some a, r =>
    let o2 : Option Obj := r.bind fun b => h[b]?
    match h[a]? with
    | none => .panic
    | some .null => .ok (match o2 with | some .null => true | _ => false)
    | some (.bool b) => .ok (match o2 with | some (.bool b') => b == b' | _ => false)
    | some (.int n) => .ok (match o2 with | some (.int n') => n == n' | _ => false)
    | some (.float x _) => .ok (match o2 with | some (.float y _) => x.feq y | _ => false)
    | some (.str s) => .ok (match o2 with | some (.str s') => s == s' | _ => false)
    | some (.ptr _) => .ok (match o2 with | some .null => true | _ => false)
    | some (.arr xs) => match o2 with
      | some (.arr ys) => if xs.length ≠ ys.length then .ok false else equalElemsH (equalsH f h) xs ys
      | _ => .ok false
    | some (.dict _ kvs) => match o2 with
      | some (.dict _ kvs2) =>
        if kvs.length ≠ kvs2.length then .ok false
        else if 0 < (smSplit kvs kvs2).1.length ∨ 0 < (smSplit kvs kvs2).2.2.2.length then .ok false
        else equalEntriesH (equalsH f h) kvs2 kvs
      | _ => .ok false

/-- How a call that reads a bounded part of memory ends. -/
inductive GRes (α : Type) where
  | ok (a : α)
  | err (e : AErr)
  | panic
  deriving DecidableEq, Repr

/-- access.go:213-240 `_get(true, keys)`, the loop over a non-empty key list. -/
def getLoopH (h : Heap) : SMap Ref → List Bytes → GRes Ref
  | _, [] => .err .outOfKeyRange
  | kvs, [k] => match smGet kvs k with
    | none => .err .keyNotFound
    | some none => .panic                      -- access.go:228
    | some (some b) => .ok (some b)
  | kvs, k :: k2 :: ks => match smGet kvs k with
    | none => .err .keyNotFound
    | some none => .err .invalidDict           -- access.go:230-233
    | some (some b) => match h[b]? with
      | some (.dict _ kvs') => getLoopH h kvs' (k2 :: ks)
      | _ => .err .invalidDict

/-- `Get(keys...)`: access.go:205-207, 150-152, jsonpointer.go:122-124. -/
def getH (h : Heap) : Ref → List Bytes → GRes Ref
  | none, _ => .panic
  | some a, keys => match h[a]? with
    | none => .panic
    | some (.dict _ kvs) => match keys with
      | [] => .ok (some a)
      | _ => getLoopH h kvs keys
    | some _ => .err .unsupported

/-- `Contains(keys...)`: access.go:189-195, 142-144, jsonpointer.go:114-116. -/
def containsH (h : Heap) (r : Ref) (keys : List Bytes) : GRes Bool :=
  match getH h r keys with
  | .ok _ => .ok true
  | .err _ => .ok false
  | .panic => .panic

/-- `GetMap(keys...)`: access.go:254-270, 181-183, jsonpointer.go:146-148. -/
def getMapH (h : Heap) (r : Ref) (keys : List Bytes) : GRes (SMap Ref) :=
  match getH h r keys with
  | .ok (some b) => match h[b]? with
    | some (.dict _ kvs) => if nilEntry kvs then .panic else .ok kvs
    | _ => .err .invalidDict
  | .ok none => .err .invalidDict
  | .err e => .err e
  | .panic => .panic

/-- access.go:272-284 `JSONArray.GetAt(i)`. -/
def arrGetAtH (xs : List Ref) (i : Int) : GRes Ref :=
  let i := if i < 0 then (xs.length : Int) + i else i
  if 0 ≤ i ∧ i < xs.length then
    match xs[i.toNat]? with
    | some x => .ok x
    | none => .panic      -- unreachable: index in range
  else .err .outOfIndexRange

/-- `GetAt(i, keys...)`: access.go:165-167, 272-303, jsonpointer.go:130-132. -/
def getAtH (h : Heap) (r : Ref) (i : Int) (keys : List Bytes) : GRes Ref :=
  match r with
  | none => .panic
  | some a => match h[a]? with
    | none => .panic
    | some (.arr xs) => match keys with
      | [] => arrGetAtH xs i
      | _ => .err .outOfKeyRange
    | some (.dict _ _) => match getH h (some a) keys with
      | .ok (some b) => match h[b]? with
        | some (.arr xs) => arrGetAtH xs i
        | _ => .err .invalidArray
      | .ok none => .err .invalidArray
      | .err e => .err e
      | .panic => .panic
    | some _ => .err .unsupported

end Jsonutils
