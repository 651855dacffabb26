import Verif.Model.Value

/-!
# `deprecated-by` tags: marshal.go:109-165 and unmarshal.go:577-621
-/

namespace Jsonutils

/-- marshal.go:109-116 `findValueByKey(pairs, key)`. -/
def findValueByKey {α} : List (Bytes × α) → Bytes → Option α
  | [], _ => none
  | (k, v) :: r, key => if k = key then some v else findValueByKey r key

/-- marshal.go:141-152: the inner `for` loop, started with `key` = target of `depKey`. Outer `none`: the loop has not
ended within the fuel; `some none`: loop detected; `some (some k)`: the chain ends at `k`. -/
def chaseDep (dep : SMap Bytes) (depKey : Bytes) : Nat → Bytes → Option (Option Bytes)
  | 0, _ => none
  | f + 1, key => match smGet dep key with
    | some okey => if okey = depKey then some none else chaseDep dep depKey f okey
    | none => some (some key)

/-- marshal.go:138-161: the loop over the deprecated keys, in the order `todo` in which the Go map yields them.
`none` = does not end within the fuel. -/
def depPairs {α} (dep : SMap Bytes) (fuel : Nat) (pairs : List (Bytes × α)) : List (Bytes × Bytes) → Option (List (Bytes × α))
  | [] => some []
  | (depKey, key) :: rest => match chaseDep dep depKey fuel key with
    | none => none
    | some found => match depPairs dep fuel pairs rest with
      | none => none
      | some ps => match found with
        | none => some ps                             -- continue
        | some k => match findValueByKey pairs k with
          | none => some ps
          | some v => some ((depKey, v) :: ps)

/-- unmarshal.go:590-612: the loop over the fields matching a key. `again` is the recursive call; the result is the list
of fields written, the keys visited, and the error that stopped the loop. `none` = not ended within the fuel.
`assign i` is the error of `v.unmarshalValue(s, fieldValues[i].Value)`. -/
def setFieldLoop {ε} (tag : Nat → Option Bytes) (assign : Nat → Option ε)
    (again : Bytes → List Bytes → Option (List Nat × List Bytes × Option ε)) :
    List Nat → List Bytes → Option (List Nat × List Bytes × Option ε)
  | [], visited => some ([], visited, none)
  | i :: is, visited => match assign i with
    | some e => some ([i], visited, some e)
    | none => match tag i with
      | none => match setFieldLoop tag assign again is visited with
        | none => none
        | some (w, v, e) => some (i :: w, v, e)
      | some k => match again k visited with
        | none => none
        | some (w1, v1, some e) => some (i :: w1, v1, some e)
        | some (w1, v1, none) => match setFieldLoop tag assign again is v1 with
          | none => none
          | some (w2, v2, e) => some (i :: (w1 ++ w2), v2, e)

/-- unmarshal.go:577-614 `setStructFieldAt(s, key, v, fieldValues, keyIndexMap, visited)`. `idx key` are the indexes of
the fields matching a key, by `keyIndexMap` or else by the less strict match (both from reflectutils, external); `tag i`
is the `deprecated-by` tag of field `i`. -/
def setStructFieldAt {ε} (idx : Bytes → List Nat) (tag : Nat → Option Bytes) (assign : Nat → Option ε) :
    Nat → Bytes → List Bytes → Option (List Nat × List Bytes × Option ε)
  | 0, _, _ => none
  | f + 1, key, visited =>
    if key ∈ visited then some ([], visited, none)
    else setFieldLoop tag assign (setStructFieldAt idx tag assign f) (idx key) (key :: visited)

end Jsonutils
