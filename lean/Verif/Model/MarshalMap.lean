import Verif.Model.Marshal

/-!
# Go maps as `Marshal` walks them: marshal.go:63-97

In `Model/Marshal` a map is the list of its entries in the order in which they are marshalled, each with the key that is
written.  Here a map has keys of any kind and comes in the order in which `MapKeys` lists it, which is arbitrary.
-/

namespace Jsonutils

/-- A key of a Go map.  `method` is what its method `Error` or `String` returns, if its type has one. -/
inductive MapKey where
  | text (s : Bytes) (method : Option Bytes)                 -- string kind
  | int (ty : Bytes) (n : Int) (method : Option Bytes)       -- integer kind; `ty` is the name of the type
  | other (sort shown : Bytes)                               -- any other kind: what the two functions below return
  deriving DecidableEq, Repr

/-- marshal.go:67 `a[i].String()`: `reflect.Value.String` is the text for string kinds, and names the type for all others
(Go standard library). -/
def MapKey.sortText : MapKey → Bytes
  | .text s _ => s
  | .int ty _ _ => b!"<" ++ ty ++ b!" Value>"
  | .other sort _ => sort

/-- marshal.go:88 `fmt.Sprintf("%s", key)`: formats the value that the `reflect.Value` holds, by its method if it has one;
`%s` is not a verb for integers (Go standard library). -/
def MapKey.shown : MapKey → Bytes
  | .text s none => s
  | .text _ (some m) => m
  | .int ty n none => b!"%!s(" ++ ty ++ b!"=" ++ intDec n ++ b!")"
  | .int _ _ (some m) => m
  | .other _ shown => shown

/-- A Go value as in `GV`, with maps as `MapKeys` lists them. -/
inductive GU where
  | leaf (l : Leaf)
  | jsonPtr (j : J)
  | seq (xs : List GU)
  | map (kvs : List (MapKey × GU))
  | struct (fs : List (FInfo × GU))
  | iface (x : GU)
  | ptr (a : Nat)
  | shared (a : Nat)

mutual
/-- The value as it is marshalled: the keys of every map sorted (marshal.go:82; `sort` is `sort.Sort`), and each written by
`Sprintf` (marshal.go:88). -/
def GU.walk (sort : List (MapKey × GV) → List (MapKey × GV)) : GU → GV
  | .leaf l => .leaf l
  | .jsonPtr j => .jsonPtr j
  | .seq xs => .seq (GU.walks sort xs)
  | .map kvs => .map ((sort (GU.walkm sort kvs)).map fun e => (e.1.shown, e.2))
  | .struct fs => .struct (GU.walkf sort fs)
  | .iface x => .iface (x.walk sort)
  | .ptr a => .ptr a
  | .shared a => .shared a
def GU.walks (sort : List (MapKey × GV) → List (MapKey × GV)) : List GU → List GV
  | [] => []
  | x :: xs => x.walk sort :: GU.walks sort xs
def GU.walkm (sort : List (MapKey × GV) → List (MapKey × GV)) : List (MapKey × GU) → List (MapKey × GV)
  | [] => []
  | (k, x) :: xs => (k, x.walk sort) :: GU.walkm sort xs
def GU.walkf (sort : List (MapKey × GV) → List (MapKey × GV)) : List (FInfo × GU) → List (FInfo × GV)
  | [] => []
  | (i, x) :: xs => (i, x.walk sort) :: GU.walkf sort xs
end

/-- marshal.go:246-261 `Marshal` (oe) and 415-430 `MarshalAll` (¬oe), of the value `v` in memory `h`. -/
def marshalU (sort : List (MapKey × GV) → List (MapKey × GV)) (ord : SMap Bytes → List (Bytes × Bytes)) (pick : List Nat → Nat) (oe : Bool)
    (h : List GU) (fuel : Nat) (v : GU) : Option J :=
  marshal ord pick oe (GU.walks sort h) fuel (v.walk sort)

end Jsonutils
