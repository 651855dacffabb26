import Verif.Model.Unmarshal

/-!
# Embedded pointers to structs: unmarshal.go:577-636

`Model/Unmarshal` has a struct with all its fields, those of embedded structs included, in one list.  Here some of the fields may belong to
a struct that is embedded by a pointer which may be nil.  reflectutils then lists the fields of a fresh struct (`Parent.Value`), and
`setStructFieldAt` stores the pointer to it when a key first leads to one of these fields.
-/

namespace Jsonutils

/-- A struct variable: the fields, and which of the embedded pointers are not nil. -/
structure EVar where
  fields : List UV
  alive : List Nat

/-- unmarshal.go:598-600: before field `i` is written, the embedded pointer it belongs to is set, if nil.  `parent i` is
`fieldValues[i].Parent` (external: reflectutils). -/
def EVar.enter (parent : Nat → Option Nat) (s : EVar) (i : Nat) : EVar :=
  match parent i with
  | none => s
  | some p => if p ∈ s.alive then s else { s with alive := p :: s.alive }

/-- unmarshal.go:597-612: the loop over the fields matching a key. -/
def setLoopE (parent : Nat → Option Nat) (tys : List (FInfo × Ty)) (assign : Ty → UV → URes)
    (again : Bytes → List Bytes → EVar → Option (EVar × List Bytes × Option UErr)) :
    List Nat → List Bytes → EVar → Option (EVar × List Bytes × Option UErr)
  | [], vis, s => some (s, vis, none)
  | i :: is, vis, s =>
    let s1 := s.enter parent i
    match tys[i]?, s1.fields[i]? with
    | some (info, t), some v => match assign t v with
      | none => none
      | some (v', some e) => some ({ s1 with fields := s1.fields.set i v' }, vis, some e)
      | some (v', none) =>
        let s2 := { s1 with fields := s1.fields.set i v' }
        match info.deprecatedBy with
        | none => setLoopE parent tys assign again is vis s2
        | some k => match again k vis s2 with
          | none => none
          | some (s3, vis1, some e) => some (s3, vis1, some e)
          | some (s3, vis1, none) => setLoopE parent tys assign again is vis1 s3
    | _, _ => none                                   -- no such field: does not occur

/-- unmarshal.go:577-614 `setStructFieldAt(s, key, v, fieldValues, keyIndexMap, visited)`. -/
def setKeyE (parent : Nat → Option Nat) (idx : Bytes → List Nat) (tys : List (FInfo × Ty)) (assign : Ty → UV → URes) :
    Nat → Bytes → List Bytes → EVar → Option (EVar × List Bytes × Option UErr)
  | 0, _, _, _ => none
  | f + 1, key, vis, s =>
    if key ∈ vis then some (s, vis, none)
    else setLoopE parent tys assign (setKeyE parent idx tys assign f) (idx key) (key :: vis) s

/-- unmarshal.go:616-636 `unmarshalStruct`, for struct type `n`; errors are collected.  (The fields themselves are variables as in
`Model/Unmarshal`.) -/
def unmE (parent : Nat → Option Nat) (P : UEnv) (n : Nat) : List (Bytes × J) → EVar → Option (EVar × List UErr)
  | [], s => some (s, [])
  | (k, j) :: r, s =>
    match setKeyE parent (P.idx n) (P.defs.getD n []) (fun t v => J.unm P j t v) ((P.defs.getD n []).length + 2) k [] s with
    | none => none
    | some (s', _, e) => (unmE parent P n r s').map fun p => (p.1, match e with | some e => e :: p.2 | none => p.2)

/-- unmarshal.go:484-541, 616-636: the dictionary `kvs` into a variable of struct type `n`: the variable afterwards and the error. -/
def unmarshalE (parent : Nat → Option Nat) (P : UEnv) (n : Nat) (kvs : SMap J) (s : EVar) : Option (EVar × Option UErr) :=
  (unmE parent P n kvs s).map fun p => (p.1, if p.2.isEmpty then none else some (.agg p.2))

end Jsonutils
