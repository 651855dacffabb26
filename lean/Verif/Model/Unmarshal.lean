import Verif.Model.Marshal
import Verif.Model.Access
import Verif.Model.Dict
import Verif.Model.Currency

/-!
# `Unmarshal`: unmarshal.go, std_json.go, update.go

A Go variable is modelled by its type and its value, a finite tree.  Simplifications: no two pointers in the target point
to the same variable; variables are settable (what `Unmarshal(&x)` reaches always is); no type implements
`json.Unmarshaler` or has an `AfterUnmarshal` method; `time.Time`, `tristate.TriState` and interfaces other than
`JSONObject` and `interface{}` are left out.  References `<n>` are `Model/UnmarshalSession`'s subject: here a reference
leaves its variable alone, which is what Go does if the document does not define `n`.
-/

namespace Jsonutils

/-- The kinds of JSON objects with a Go type of their own: jsonutils.go:72-105. -/
inductive JKind where
  | dict | arr | str | int | float | bool
  deriving DecidableEq, Repr

/-- Go types.  A struct type is an index into the table of struct types, so that types may be recursive. -/
inductive Ty where
  | bool
  | int (bits : Nat)           -- int8 ... int64, int
  | uint (bits : Nat)
  | float32
  | float64
  | string
  | slice (t : Ty)
  | array (n : Nat) (t : Ty)
  | map (t : Ty)               -- keys of string kind
  | mapOther (t : Ty)          -- other keys
  | ptr (t : Ty)
  | struct (n : Nat)
  | any                        -- interface{}
  | jobj                       -- JSONObject
  | jptr (k : JKind)           -- *JSONDict, *JSONArray, ...
  | jval (k : JKind)           -- JSONDict, JSONArray, ... by value
  | other                      -- chan, func, ...
  deriving DecidableEq, Repr

/-- What an `interface{}` variable holds after `Unmarshal`. -/
inductive AnyVal where
  | bool (b : Bool)
  | int (n : Int)              -- int64
  | float (x : GoFloat)        -- float64
  | str (s : Bytes)
  | objs (xs : List J)         -- []JSONObject
  deriving Repr

/-- Values.  `seq xs spare`: a non-nil slice, its elements, and what its backing array holds behind them (capacity). -/
inductive UV where
  | nil
  | bool (b : Bool)
  | int (n : Int)
  | float (x : GoFloat)
  | str (s : Bytes)
  | seq (xs spare : List UV)
  | arr (xs : List UV)
  | map (kvs : List (Bytes × UV))
  | ptr (x : UV)
  | struct (fs : List UV)
  | any (a : AnyVal)
  | json (j : J)
  deriving Inhabited

abbrev Defs := List (List (FInfo × Ty))

/-- What the code takes from elsewhere: the struct types, `GetStructFieldIndexesMap`/`GetStructFieldIndexes2` of reflectutils
(the indexes of the fields a key matches), `utils.ToBool`, the currency regular expressions, and Go's conversion
`int64(x)` of a float. -/
structure UEnv where
  defs : Defs
  idx : Nat → Bytes → List Nat
  toBool : Bytes → Bool
  us : Bytes → Bool
  eu : Bytes → Bool
  trunc : GoFloat → Int

/-- Errors, by their cause. -/
inductive UErr where
  | mismatch        -- ErrTypeMismatch
  | arrayLen        -- ErrArrayLengthMismatch
  | mapKey          -- ErrMapKeyMustString
  | ifaceUnsupp     -- ErrInterfaceUnsupported
  | num             -- strconv
  | agg (es : List UErr)   -- errors.NewAggregate
  | get             -- Get(keys...) failed
  deriving Repr

/-- The zero value of JSONDict, JSONArray, ... -/
def JKind.zero : JKind → J
  | .dict => .dict 0 []
  | .arr => .arr []
  | .str => .str []
  | .int => .int 0
  | .float => .float (.fin false 0 0) 0
  | .bool => .bool false

/-- Zero value of a type (`reflect.New(t).Elem()`); `zs` are those of the struct types. -/
def Ty.zeroIn (zs : List UV) : Ty → UV
  | .bool => .bool false
  | .int _ => .int 0
  | .uint _ => .int 0
  | .float32 => .float (.fin false 0 0)
  | .float64 => .float (.fin false 0 0)
  | .string => .str []
  | .array n t => .arr (List.replicate n (t.zeroIn zs))
  | .struct n => zs.getD n .nil
  | .jval k => .json k.zero
  | _ => .nil

/-- Zero values of the struct types; a struct contains by value only structs earlier in the table (in Go, containment by
value is well founded). -/
def zerosOf : Defs → List UV → List UV
  | [], zs => zs
  | fs :: r, zs => zerosOf r (zs ++ [.struct (fs.map fun f => f.2.zeroIn zs)])

def UEnv.zero (P : UEnv) (t : Ty) : UV := t.zeroIn (zerosOf P.defs [])

/-- `SetInt` on an integer variable of `b` bits. -/
def wrapI (b : Nat) (n : Int) : Int := (n + 2 ^ (b - 1)) % 2 ^ b - 2 ^ (b - 1)
/-- `SetUint(uint64(n))` on an unsigned variable of `b` bits. -/
def wrapU (b : Nat) (n : Int) : Int := n % 2 ^ b

/-- `± m · 2^(e - bias)` of format `g`, rounded to format `f`, and read as a value of format `g` again. -/
def roundVia (f g : FFmt) (neg : Bool) (m e : Nat) : GoFloat :=
  match roundPos f (m * 2 ^ e) (2 ^ g.bias) with
  | none => .inf neg
  | some (m', e') => match roundPos g (m' * 2 ^ e') (2 ^ f.bias) with
    | none => .inf neg
    | some (m'', e'') => .fin neg m'' e''

/-- `float32(x)`, as a float64. -/
def toF32 : GoFloat → GoFloat
  | .fin neg m e => roundVia f32 f64 neg m e
  | x => x

/-- std_json.go:38-83 `indirectStdUnmarshaler`: on the way to a (never found) `UnmarshalJSON` method, all nil pointers are
replaced by pointers to zero values. -/
def UEnv.alloc (P : UEnv) : Ty → UV → UV
  | .ptr t, .ptr x => .ptr (P.alloc t x)
  | .ptr t, _ => .ptr (P.alloc t (P.zero t))
  | .jptr k, .nil => .json k.zero
  | _, v => v

/-- Value and error of a call of `unmarshalValue`; `none` = panic. -/
abbrev URes := Option (UV × Option UErr)

def uok (v : UV) : URes := some (v, none)
def uerr (v : UV) (e : UErr) : URes := some (v, some e)

/-- Wrap the result for the pointee. -/
def uptr (r : URes) : URes := r.map fun p => (.ptr p.1, p.2)

/-- unmarshal.go:83-146 `JSONInt._unmarshalValue`. -/
def unmInt (n : Int) : Ty → UV → URes
  | .bool, _ => uok (.bool (n != 0))
  | .int b, _ => uok (.int (wrapI b n))
  | .uint b, _ => uok (.int (wrapU b n))
  | .float32, _ => uok (.float (toF32 (floatOfInt n)))
  | .float64, _ => uok (.float (floatOfInt n))
  | .string, _ => uok (.str (intDec n))
  | .ptr t, .ptr x => uptr (unmInt n t x)
  | .any, _ => uok (.any (.int n))
  | .jobj, _ => uok (.json (.int n))
  | .jptr .int, _ => uok (.json (.int n))
  | .jptr .str, _ => uok (.json (.str (intDec n)))
  | .jval .int, v => uok v                 -- assigns to a copy
  | .jval .str, v => uok v
  | _, v => uerr v .mismatch

/-- unmarshal.go:148-214 `JSONBool._unmarshalValue`.  `SetInt` on an unsigned variable panics. -/
def unmBool (b : Bool) : Ty → UV → URes
  | .bool, _ => uok (.bool b)
  | .int w, _ => uok (.int (wrapI w (if b then 1 else 0)))
  | .uint _, _ => none
  | .float32, _ => uok (.float (toF32 (floatOfInt (if b then 1 else 0))))
  | .float64, _ => uok (.float (floatOfInt (if b then 1 else 0)))
  | .string, _ => uok (.str (if b then b!"true" else b!"false"))
  | .ptr t, .ptr x => uptr (unmBool b t x)
  | .any, _ => uok (.any (.bool b))
  | .jobj, _ => uok (.json (.bool b))
  | .jptr .bool, _ => uok (.json (.bool b))
  | .jptr .str, _ => uok (.json (.str (if b then b!"true" else b!"false")))
  | .jval .bool, v => uok v                -- assigns to a copy
  | .jval .str, v => uok v
  | _, v => uerr v .mismatch

/-- unmarshal.go:216-293 `JSONFloat._unmarshalValue`.  `SetInt` on an unsigned variable panics. -/
def unmFloat (P : UEnv) (f : GoFloat) (bit : Nat) : Ty → UV → URes
  | .bool, _ => uok (.bool (!f.isZero))
  | .int w, _ => uok (.int (wrapI w (P.trunc f)))
  | .uint _, _ => none
  | .float32, _ => uok (.float (toF32 f))
  | .float64, _ => uok (.float f)
  | .string, _ => uok (.str (sprintfF f))
  | .ptr t, .ptr x => uptr (unmFloat P f bit t x)
  | .any, _ => uok (.any (.float f))
  | .jobj, _ => uok (.json (.float f bit))
  | .jptr .float, _ => uok (.json (.float f bit))
  | .jptr .str, _ => uok (.json (.str (sprintfF f)))
  | .jptr .int, _ => uok (.json (.int (P.trunc f)))
  | .jval .float, v => uok v               -- assigns to a copy
  | .jval .str, v => uok v
  | .jval .int, v => uok v
  | .jval .bool, v => uok v
  | _, v => uerr v .mismatch

/-- The backing array of a slice. -/
def UV.backing : UV → List UV
  | .seq xs spare => xs ++ spare
  | _ => []

/-- unmarshal.go:339, 354 and 361: the words for true. -/
def isTrueWord (s : Bytes) : Bool := [b!"true", b!"yes", b!"on", b!"1"].contains (lowerBytes s)

/-- unmarshal.go:302-430 `JSONString._unmarshalValue`. -/
def unmStr (P : UEnv) (s : Bytes) : Ty → UV → URes
  | .bool, _ => uok (.bool (P.toBool s))
  | .int b, v => if s.isEmpty then uok v else match parseInt (normalizeCurrency P.us P.eu s) with
    | some n => uok (.int (wrapI b n))
    | none => uerr v .num
  | .uint b, v => if s.isEmpty then uok v else match parseUint (normalizeCurrency P.us P.eu s) with
    | some n => uok (.int (wrapU b n))
    | none => uerr v .num
  | .float32, v => if s.isEmpty then uok v else match parseFloat (normalizeCurrency P.us P.eu s) with
    | some x => uok (.float (toF32 x))
    | none => uerr v .num
  | .float64, v => if s.isEmpty then uok v else match parseFloat (normalizeCurrency P.us P.eu s) with
    | some x => uok (.float x)
    | none => uerr v .num
  | .string, _ => uok (.str s)
  | .ptr t, .ptr x => uptr (unmStr P s t x)
  | .any, _ => uok (.any (.str s))
  | .slice t, v =>
    -- the slice becomes one element long; the text goes into that element
    match v.backing with
    | [] => (unmStr P s t (P.alloc t (P.zero t))).map fun p => (.seq [p.1] [], p.2)
    | x :: r => (unmStr P s t (P.alloc t x)).map fun p => (.seq [p.1] r, p.2)
  | .jobj, _ => uok (.json (.str s))
  | .jptr .str, _ => uok (.json (.str s))
  | .jptr .bool, _ => uok (.json (.bool (isTrueWord s)))
  | .jval .str, v => uok v                 -- assigns to a copy
  | .jval .bool, v => uok v
  | _, v => uerr v .mismatch

/-- unmarshal.go:454-462: a slice variable about to receive `n` elements.  A longer backing array is reused, with its old
contents. -/
def UEnv.resize (P : UEnv) (t : Ty) (n : Nat) (v : UV) : List UV × List UV :=
  match v with
  | .seq xs spare =>
    if xs.length + spare.length < n then (List.replicate n (P.zero t), [])
    else ((xs ++ spare).take n, (xs ++ spare).drop n)
  | _ => (List.replicate n (P.zero t), [])

/-- unmarshal.go:432-476 `JSONArray._unmarshalValue` of the array `xs`, but for the pointer case; `elems` unmarshals the
elements into a list of variables. -/
def arrInto (P : UEnv) (xs : List J) (elems : Ty → List UV → Option (List UV × Option UErr)) : Ty → UV → URes
  | .string, _ => uok (.str (J.arr xs).toBytes)
  | .any, _ => uok (.any (.objs xs))
  | .slice t, v =>
    let (now, spare) := P.resize t xs.length v
    (elems t now).map fun p => (.seq p.1 spare, p.2)
  | .array n t, .arr vs =>
    if n ≠ xs.length then uerr (.arr vs) .arrayLen
    else (elems t vs).map fun p => (.arr p.1, p.2)
  | .jobj, _ => uok (.json (.arr xs))
  | .jptr .arr, _ => uok (.json (.arr xs))
  | .jval .arr, .json (.arr old) => uok (.json (.arr (old ++ xs)))
  | _, v => uerr v .mismatch

/-- unmarshal.go:597-612: the loop over the fields matching a key.  `assign` is `v.unmarshalValue` on a field. -/
def setLoop (tys : List (FInfo × Ty)) (assign : Ty → UV → URes)
    (again : Bytes → List Bytes → List UV → Option (List UV × List Bytes × Option UErr)) :
    List Nat → List Bytes → List UV → Option (List UV × List Bytes × Option UErr)
  | [], vis, vs => some (vs, vis, none)
  | i :: is, vis, vs => match tys[i]?, vs[i]? with
    | some (info, t), some v => match assign t v with
      | none => none
      | some (v', some e) => some (vs.set i v', vis, some e)
      | some (v', none) => match info.deprecatedBy with
        | none => setLoop tys assign again is vis (vs.set i v')
        | some k => match again k vis (vs.set i v') with
          | none => none
          | some (vs1, vis1, some e) => some (vs1, vis1, some e)
          | some (vs1, vis1, none) => setLoop tys assign again is vis1 vs1
    | _, _ => none                                   -- no such field: does not occur

/-- unmarshal.go:577-614 `setStructFieldAt(s, key, v, fieldValues, keyIndexMap, visited)`; see also `Model/Deprecated`.
Embedded structs are flattened (as for `Marshal`); embedded nil pointers (lines 598-600) are in `Model/Embedded`. -/
def setKey (idx : Bytes → List Nat) (tys : List (FInfo × Ty)) (assign : Ty → UV → URes) :
    Nat → Bytes → List Bytes → List UV → Option (List UV × List Bytes × Option UErr)
  | 0, _, _, _ => none
  | f + 1, key, vis, vs =>
    if key ∈ vis then some (vs, vis, none)
    else setLoop tys assign (setKey idx tys assign f) (idx key) (key :: vis) vs

/-- The entries of a map variable. -/
def UV.entries : UV → SMap UV
  | .map m => m
  | _ => []

/-- unmarshal.go:484-541 `JSONDict._unmarshalValue`, but for the pointer case; `entries` unmarshals the entries into a
map, `fields` into the fields of a struct. -/
def dictInto (nodeId : Int) (kvs : SMap J) (entries : Ty → SMap UV → Option (SMap UV × Option UErr))
    (fields : Nat → List UV → Option (List UV × List UErr)) : Ty → UV → URes
  | .string, _ => uok (.str (J.dict nodeId kvs).toBytes)
  | .map t, v =>
    -- unmarshal.go:543-575 unmarshalMap
    (entries t v.entries).map fun p => (.map p.1, p.2)
  | .mapOther _, v => uerr (.map v.entries) .mapKey
  | .struct n, .struct vs =>
    -- unmarshal.go:616-636 unmarshalStruct
    (fields n vs).map fun p => (.struct p.1, if p.2.isEmpty then none else some (.agg p.2))
  | .any, v => uerr v .ifaceUnsupp
  | .jobj, _ => uok (.json (.dict nodeId kvs))
  | .jptr .dict, _ => uok (.json (.dict nodeId kvs))
  | .jval .dict, .json (.dict id old) => uok (.json (.dict id (dictUpdate old (.dict nodeId kvs))))
  | _, v => uerr v .mismatch

/-- Is the kind of the type slice or array? unmarshal.go:447. -/
def Ty.isSeq : Ty → Bool
  | .slice _ => true
  | .array _ _ => true
  | _ => false

/-- Is the kind of the type struct or map? unmarshal.go:527.  (JSONDict, JSONArray, ... are structs.) -/
def Ty.isStructOrMap : Ty → Bool
  | .struct _ => true
  | .map _ => true
  | .mapOther _ => true
  | _ => false

mutual
/-- `v.unmarshalValue(s, val)`: jsonpointer.go:75-77, unmarshal.go:71-77 (null), and the methods above behind
`tryStdUnmarshal` (std_json.go:25-31). -/
def J.unm (P : UEnv) : J → Ty → UV → URes
  | .null, t, _ => uok (P.zero t)
  | .ptr _, _, v => uok v
  | .int n, t, v => unmInt n t (P.alloc t v)
  | .bool b, t, v => unmBool b t (P.alloc t v)
  | .float x bit, t, v => unmFloat P x bit t (P.alloc t v)
  | .str s, t, v => unmStr P s t (P.alloc t v)
  | .arr xs, t, v => match t, P.alloc t v with
    -- unmarshal.go:446-454
    | .ptr t', .ptr x => if t'.isSeq then uptr (arrInto P xs (fun t vs => J.unms P xs t vs) t' x) else uerr (.ptr x) .mismatch
    | t, v => arrInto P xs (fun t vs => J.unms P xs t vs) t v
  | .dict id kvs, t, v => match t, P.alloc t v with
    -- unmarshal.go:526-540
    | .ptr t', .ptr x =>
      if t'.isStructOrMap then uptr (dictInto id kvs (fun t m => J.unmm P kvs t m) (fun n vs => J.unmf P kvs n vs) t' x)
      else uerr (.ptr x) .mismatch
    | t, v => dictInto id kvs (fun t m => J.unmm P kvs t m) (fun n vs => J.unmf P kvs n vs) t v
/-- unmarshal.go:465-470: the elements, until one fails. -/
def J.unms (P : UEnv) : List J → Ty → List UV → Option (List UV × Option UErr)
  | [], _, vs => some (vs, none)
  | j :: js, t, v :: vs => match J.unm P j t v with
    | none => none
    | some (v', some e) => some (v' :: vs, some e)
    | some (v', none) => (J.unms P js t vs).map fun p => (v' :: p.1, p.2)
  | _ :: _, _, [] => none                            -- index out of range: does not occur
/-- unmarshal.go:555-573: the entries of a map, until one fails. -/
def J.unmm (P : UEnv) : List (Bytes × J) → Ty → SMap UV → Option (SMap UV × Option UErr)
  | [], _, m => some (m, none)
  | (k, j) :: r, t, m => match J.unm P j t (P.zero t) with
    | none => none
    | some (_, some e) => some (m, some e)
    | some (v, none) => J.unmm P r t (smAdd m k v)
/-- unmarshal.go:620-628: the keys of a struct; errors are collected. -/
def J.unmf (P : UEnv) : List (Bytes × J) → Nat → List UV → Option (List UV × List UErr)
  | [], _, vs => some (vs, [])
  | (k, j) :: r, n, vs =>
    match setKey (P.idx n) (P.defs.getD n []) (fun t v => J.unm P j t v) ((P.defs.getD n []).length + 2) k [] vs with
    | none => none
    | some (vs', _, e) => (J.unmf P r n vs').map fun p => (p.1, match e with | some e => e :: p.2 | none => p.2)
end

/-- unmarshal.go:40-69 `v.Unmarshal(&x, keys...)`: the variable afterwards and the error.  JSONInt, JSONFloat and JSONBool
have no method `Unmarshal` of their own: the one promoted from JSONValue passes the embedded JSONValue on, whose
`unmarshalValue` is that of null.  jsonpointer.go:162-164: a reference stands for null. -/
def J.unmarshal (P : UEnv) (v : J) (keys : List Bytes) (t : Ty) (x : UV) : URes :=
  match keys with
  | [] => match v with
    | .str _ => v.unm P t x
    | .arr _ => v.unm P t x
    | .dict _ _ => v.unm P t x
    | _ => uok (P.zero t)
  | _ => match v.get keys with
    | .ok c => c.unm P t x
    | .err _ => uerr x .get
    | _ => none

/-- update.go:17-20 `Update(&x, src)`; `none` also if `Marshal` does not return. -/
def update (ord : SMap Bytes → List (Bytes × Bytes)) (pick : List Nat → Nat) (P : UEnv) (h : List GV) (n : Nat) (src : GV) (t : Ty) (x : UV) : URes :=
  match marshal ord pick true h n src with
  | none => none
  | some j => j.unmarshal P [] t x

end Jsonutils
