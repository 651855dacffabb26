import Verif.Model.Dict

/-!
# Shortcuts: utils.go:54-60, 114-117, values.go, size.go
-/

namespace Jsonutils

/-- utils.go:54-60 `GetStringArray(o, keys...)`. -/
def getStringArray (o : J) (keys : List Bytes) : Res (List Bytes) :=
  match o.getArray keys with
  | .ok xs => .ok (stringArray xs)
  | .err e => .err e
  | .diverge => .diverge

/-- utils.go:114-117 `GetAnyString(json, keys)`. -/
def getAnyString (v : J) (keys : List Bytes) : Bytes := (getAnyString2 v keys).1

/-- size.go:17-23 `Size()` (dictionaries and arrays; other kinds have no such method). -/
def J.size? : J → Option Nat
  | .dict _ kvs => some kvs.length
  | .arr xs => some xs.length
  | _ => none

/-- values.go:38-41 `JSONDict.Value()`: the error of `GetMap` is dropped, the map is then nil. -/
def J.valueMap (v : J) : SMap J :=
  match v.getMap [] with
  | .ok m => m
  | _ => []

/-- values.go:44-47 `JSONArray.Value()`. -/
def J.valueArr (v : J) : List J :=
  match v.getArray [] with
  | .ok xs => xs
  | _ => []

end Jsonutils
