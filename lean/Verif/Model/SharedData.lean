import Verif.Model.Unmarshal
import Verif.Model.HeapRead

/-!
# `Unmarshal` into variables that hold documents, in memory

`Model/Unmarshal` copies documents into variables as values.  In Go a variable of type `JSONObject`, `*JSONDict`, `*JSONArray`, ... receives
a pointer to the object of the document itself, and some conversions (a number into a `*JSONString` variable, ...) write into the object the
variable points to.  Here documents and such variables share one memory.  Simplifications: as in `Model/Unmarshal`; `interface{}`, fixed-size
arrays, maps with other keys and JSONDict, JSONArray, ... by value are left out; the width that `JSONFloat.String` writes back
(unmarshal.go:445 and 493, a text variable) is `Model/SharedText`'s business.
-/

namespace Jsonutils

/-- The kinds of plain variables. -/
inductive Sc where
  | bool | int (bits : Nat) | uint (bits : Nat) | float32 | float64 | string
  deriving DecidableEq, Repr

def Sc.ty : Sc → Ty
  | .bool => .bool
  | .int b => .int b
  | .uint b => .uint b
  | .float32 => .float32
  | .float64 => .float64
  | .string => .string

/-- Types of variables; a struct type is an index into the table of struct types. -/
inductive DTy where
  | sc (s : Sc)
  | obj                        -- JSONObject
  | jptr (k : JKind)           -- *JSONDict, *JSONArray, ...
  | slice (t : DTy)
  | map (t : DTy)              -- keys of string kind
  | ptr (t : DTy)
  | struct (n : Nat)
  deriving DecidableEq, Repr

/-- Contents of variables: `ref a` is a pointer to the JSON object at `a`; `seq xs spare` is a slice with what is behind it. -/
inductive DV where
  | nil
  | sc (x : UV)
  | ref (a : Addr)
  | seq (xs spare : List DV)
  | map (kvs : List (Bytes × DV))
  | ptr (x : DV)
  | struct (fs : List DV)
  deriving Inhabited

/-- What the code takes from elsewhere: as `UEnv`. -/
structure DEnv where
  defs : List (List (FInfo × DTy))
  idx : Nat → Bytes → List Nat
  toBool : Bytes → Bool
  us : Bytes → Bool
  eu : Bytes → Bool
  trunc : GoFloat → Int

/-- The type, as one of `Model/Unmarshal`. -/
def DTy.ty : DTy → Ty
  | .sc s => s.ty
  | .obj => .jobj
  | .jptr k => .jptr k
  | .slice t => .slice t.ty
  | .map t => .map t.ty
  | .ptr t => .ptr t.ty
  | .struct n => .struct n

/-- The same environment for `Model/Unmarshal`. -/
def DEnv.env (D : DEnv) : UEnv where
  defs := D.defs.map fun fs => fs.map fun f => (f.1, f.2.ty)
  idx := D.idx
  toBool := D.toBool
  us := D.us
  eu := D.eu
  trunc := D.trunc

/-- Zero value of a type; `zs` are those of the struct types. -/
def DTy.zeroIn (zs : List DV) : DTy → DV
  | .sc s => .sc (s.ty.zeroIn [])
  | .struct n => zs.getD n .nil
  | _ => .nil

/-- Zero values of the struct types (a struct contains by value only earlier structs). -/
def zerosD : List (List (FInfo × DTy)) → List DV → List DV
  | [], zs => zs
  | fs :: r, zs => zerosD r (zs ++ [.struct (fs.map fun f => f.2.zeroIn zs)])

def DEnv.zero (D : DEnv) (t : DTy) : DV := t.zeroIn (zerosD D.defs [])

/-- A zero JSONDict, JSONArray, ... -/
def JKind.zeroObj : JKind → Obj
  | .dict => .dict 0 []
  | .arr => .arr []
  | .str => .str []
  | .int => .int 0
  | .float => .float (.fin false 0 0) 0
  | .bool => .bool false

/-- std_json.go:38-83: all nil pointers on the way into the variable are replaced by pointers to zero values. -/
def DEnv.alloc (D : DEnv) : DTy → Heap → DV → DV × Heap
  | .ptr t, h, .ptr x => let r := D.alloc t h x; (.ptr r.1, r.2)
  | .ptr t, h, _ => let r := D.alloc t h (D.zero t); (.ptr r.1, r.2)
  | .jptr k, h, .nil => let r := h.alloc k.zeroObj; (.ref r.1, r.2)
  | _, h, v => (v, h)

/-- What happens to a `*JSONxxx` variable when an object is unmarshalled into it. -/
inductive Conv where
  | same                       -- it gets a pointer to that object
  | write (o : Obj)            -- the object it points to is overwritten
  | mismatch                   -- ErrTypeMismatch

/-- The cases of the type switches: unmarshal.go:85-108 (int), 154-177 (bool), 222-263 (float), 304-356 (string), 434-443 (array), 486-497
(dictionary). -/
def convert (trunc : GoFloat → Int) : Obj → JKind → Conv
  | .int _, .int => .same
  | .int n, .str => .write (.str (intDec n))
  | .bool _, .bool => .same
  | .bool b, .str => .write (.str (if b then b!"true" else b!"false"))
  | .float _ _, .float => .same
  | .float x _, .str => .write (.str (sprintfF x))
  | .float x _, .int => .write (.int (trunc x))
  | .str _, .str => .same
  | .str s, .bool => .write (.bool (isTrueWord s))
  | .arr _, .arr => .same
  | .dict _ _, .dict => .same
  | _, _ => .mismatch

/-- The variable afterwards, the error, and memory. -/
abbrev DOut := CRes ((DV × Option UErr) × Heap)

def dok (v : DV) (h : Heap) : DOut := .ok ((v, none), h)
def derr (v : DV) (e : UErr) (h : Heap) : DOut := .ok ((v, some e), h)
/-- Wrap the result for the pointee. -/
def dptr (r : DOut) : DOut := r.map fun p => ((.ptr p.1.1, p.1.2), p.2)

/-- Unmarshal the object `o` at `a` into a `*JSONxxx` variable (allocated, so not nil). -/
def putPtr (D : DEnv) (a : Addr) (o : Obj) (k : JKind) (h : Heap) (v : DV) : DOut :=
  match convert D.trunc o k with
  | .same => dok (.ref a) h
  | .mismatch => derr v .mismatch h
  | .write o' => match v with
    | .ref b => dok v (h.set b o')
    | _ => derr v .mismatch h               -- does not occur: the pointer is allocated

/-- A scalar object as a value. -/
def Obj.scalar : Obj → J
  | .bool b => .bool b
  | .int n => .int n
  | .float x bit => .float x bit
  | .str s => .str s
  | _ => .null

/-- The content of a plain variable. -/
def DV.plain : DV → UV
  | .sc x => x
  | _ => .nil

/-- The backing array of a slice. -/
def DV.backing : DV → List DV
  | .seq xs spare => xs ++ spare
  | _ => []

/-- unmarshal.go:79-430: a number, boolean or text, the object `o` at `a`, into an allocated variable.  Plain variables: `Model/Unmarshal`. -/
def putScalar (D : DEnv) (a : Addr) (o : Obj) : DTy → Heap → DV → DOut
  | .sc s, h, v => match o.scalar.unm D.env s.ty v.plain with
    | none => .panic
    | some (x, e) => .ok ((.sc x, e), h)
  | .obj, h, _ => dok (.ref a) h
  | .jptr k, h, v => putPtr D a o k h v
  | .ptr t, h, .ptr x => dptr (putScalar D a o t h x)
  | .slice t, h, v => match o with
    | .str _ =>
      -- unmarshal.go:417-425: the slice becomes one element long; the text goes into that element
      let r := D.alloc t h (v.backing.headD (D.zero t))
      (putScalar D a o t r.2 r.1).map fun p => ((.seq [p.1.1] v.backing.tail, p.1.2), p.2)
    | _ => derr v .mismatch h
  | _, h, v => derr v .mismatch h

/-- unmarshal.go:454-462: a slice variable about to receive `n` elements. -/
def DEnv.resize (D : DEnv) (t : DTy) (n : Nat) (v : DV) : List DV × List DV :=
  match v with
  | .seq xs spare =>
    if xs.length + spare.length < n then (List.replicate n (D.zero t), [])
    else ((xs ++ spare).take n, (xs ++ spare).drop n)
  | _ => (List.replicate n (D.zero t), [])

/-- unmarshal.go:465-470: the elements, until one fails; `g` unmarshals one. -/
def elemsD (g : Heap → Ref → DV → DOut) : Heap → List Ref → List DV → CRes ((List DV × Option UErr) × Heap)
  | h, [], vs => .ok ((vs, none), h)
  | _, _ :: _, [] => .panic                          -- index out of range: does not occur
  | h, r :: rs, v :: vs => match g h r v with
    | .ok ((v', some e), h1) => .ok ((v' :: vs, some e), h1)
    | .ok ((v', none), h1) => (elemsD g h1 rs vs).map fun p => ((v' :: p.1.1, p.1.2), p.2)
    | .panic => .panic
    | .fuel => .fuel

/-- unmarshal.go:555-573: the entries of a map, until one fails; `g` unmarshals one into a new variable. -/
def entriesD (g : Heap → Ref → DOut) : Heap → SMap Ref → SMap DV → CRes ((SMap DV × Option UErr) × Heap)
  | h, [], m => .ok ((m, none), h)
  | h, (k, r) :: kvs, m => match g h r with
    | .ok ((_, some e), h1) => .ok ((m, some e), h1)
    | .ok ((v, none), h1) => entriesD g h1 kvs (smAdd m k v)
    | .panic => .panic
    | .fuel => .fuel

/-- The fields, the keys visited, the error, and memory. -/
abbrev KRes := CRes ((List DV × List Bytes × Option UErr) × Heap)

/-- unmarshal.go:597-612: the loop over the fields matching a key. -/
def setLoopD (tys : List (FInfo × DTy)) (assign : DTy → Heap → DV → DOut) (again : Bytes → List Bytes → Heap → List DV → KRes) :
    List Nat → List Bytes → Heap → List DV → KRes
  | [], vis, h, vs => .ok ((vs, vis, none), h)
  | i :: is, vis, h, vs => match tys[i]?, vs[i]? with
    | some (info, t), some v => match assign t h v with
      | .panic => .panic
      | .fuel => .fuel
      | .ok ((v', some e), h1) => .ok ((vs.set i v', vis, some e), h1)
      | .ok ((v', none), h1) => match info.deprecatedBy with
        | none => setLoopD tys assign again is vis h1 (vs.set i v')
        | some k => match again k vis h1 (vs.set i v') with
          | .panic => .panic
          | .fuel => .fuel
          | .ok ((vs1, vis1, some e), h2) => .ok ((vs1, vis1, some e), h2)
          | .ok ((vs1, vis1, none), h2) => setLoopD tys assign again is vis1 h2 vs1
    | _, _ => .panic                                 -- no such field: does not occur

/-- unmarshal.go:577-614 `setStructFieldAt`. -/
def setKeyD (idx : Bytes → List Nat) (tys : List (FInfo × DTy)) (assign : DTy → Heap → DV → DOut) : Nat → Bytes → List Bytes → Heap → List DV → KRes
  | 0, _, _, _, _ => .panic                          -- more rounds than keys: does not occur
  | f + 1, key, vis, h, vs =>
    if key ∈ vis then .ok ((vs, vis, none), h)
    else setLoopD tys assign (setKeyD idx tys assign f) (idx key) (key :: vis) h vs

/-- unmarshal.go:620-628: the keys of a struct; errors are collected.  `g` unmarshals one value. -/
def fieldsD (D : DEnv) (n : Nat) (g : Ref → DTy → Heap → DV → DOut) : Heap → SMap Ref → List DV → CRes ((List DV × List UErr) × Heap)
  | h, [], vs => .ok ((vs, []), h)
  | h, (k, r) :: kvs, vs =>
    if r.isNone then .panic                          -- unmarshal.go:622
    else match setKeyD (D.idx n) (D.defs.getD n []) (g r) ((D.defs.getD n []).length + 2) k [] h vs with
      | .panic => .panic
      | .fuel => .fuel
      | .ok ((vs', _, e), h1) => (fieldsD D n g h1 kvs vs').map fun p => ((p.1.1, match e with | some e => e :: p.1.2 | none => p.1.2), p.2)

/-- The entries of a map variable. -/
def DV.entries : DV → SMap DV
  | .map m => m
  | _ => []

/-- unmarshal.go:432-476: the array `rs` at `a`, but for the pointer case; `g` unmarshals one element, `text` is its `String()`. -/
def arrD (D : DEnv) (a : Addr) (rs : List Ref) (text : Heap → CRes Bytes) (g : DTy → Heap → Ref → DV → DOut) : DTy → Heap → DV → DOut
  | .sc s, h, v => match s with
    | .string => (text h).map fun x => ((.sc (.str x), none), h)
    | _ => derr v .mismatch h
  | .slice t, h, v =>
    let (now, spare) := D.resize t rs.length v
    (elemsD (g t) h rs now).map fun p => ((.seq p.1.1 spare, p.1.2), p.2)
  | .obj, h, _ => dok (.ref a) h
  | .jptr k, h, v => putPtr D a (.arr rs) k h v
  | _, h, v => derr v .mismatch h

/-- unmarshal.go:484-541: the dictionary `kvs` at `a`, but for the pointer case. -/
def dictD (D : DEnv) (a : Addr) (id : Int) (kvs : SMap Ref) (text : Heap → CRes Bytes) (g : DTy → Heap → Ref → DV → DOut) : DTy → Heap → DV → DOut
  | .sc s, h, v => match s with
    | .string => (text h).map fun x => ((.sc (.str x), none), h)
    | _ => derr v .mismatch h
  | .map t, h, v => (entriesD (fun h r => g t h r (D.zero t)) h kvs v.entries).map fun p => ((.map p.1.1, p.1.2), p.2)
  | .struct n, h, v => match v with
    | .struct vs => (fieldsD D n (fun r t h v => g t h r v) h kvs vs).map fun p =>
        ((.struct p.1.1, if p.1.2.isEmpty then none else some (.agg p.1.2)), p.2)
    | _ => derr v .mismatch h                        -- does not occur
  | .obj, h, _ => dok (.ref a) h
  | .jptr k, h, v => putPtr D a (.dict id kvs) k h v
  | _, h, v => derr v .mismatch h

/-- unmarshal.go:447: slices (fixed-size arrays are left out). -/
def DTy.isSeq : DTy → Bool
  | .slice _ => true
  | _ => false

/-- unmarshal.go:527. -/
def DTy.isStructOrMap : DTy → Bool
  | .struct _ => true
  | .map _ => true
  | _ => false

/-- `r.unmarshalValue(s, val)`, on memory: jsonpointer.go:75-77, unmarshal.go:71-77 (null), and the methods above behind `tryStdUnmarshal`
(std_json.go:25-31).  A nil variable panics. -/
def unmD (D : DEnv) : Nat → DTy → Heap → Ref → DV → DOut
  | _, _, _, none, _ => .panic
  | 0, _, _, some _, _ => .fuel
  | f + 1, t, h, some a, v => match h[a]? with
    | none => .panic                                 -- dangling: does not occur
    | some .null => dok (D.zero t) h
    | some (.ptr _) => dok v h
    | some (.arr rs) =>
      let r := D.alloc t h v
      match t, r.1 with
      | .ptr t', .ptr x =>
        if t'.isSeq then dptr (arrD D a rs (fun h => textH (f + 1) h (some a)) (unmD D f) t' r.2 x) else derr (.ptr x) .mismatch r.2
      | t, v => arrD D a rs (fun h => textH (f + 1) h (some a)) (unmD D f) t r.2 v
    | some (.dict id kvs) =>
      let r := D.alloc t h v
      match t, r.1 with
      | .ptr t', .ptr x =>
        if t'.isStructOrMap then dptr (dictD D a id kvs (fun h => textH (f + 1) h (some a)) (unmD D f) t' r.2 x) else derr (.ptr x) .mismatch r.2
      | t, v => dictD D a id kvs (fun h => textH (f + 1) h (some a)) (unmD D f) t r.2 v
    | some o => let r := D.alloc t h v; putScalar D a o t r.2 r.1

/-- unmarshal.go:40-69 `v.Unmarshal(&x, keys...)` on the object at `a`.  At the root, numbers and booleans count as null (see
`J.unmarshal`), and so do references. -/
def unmarshalD (D : DEnv) (f : Nat) (h : Heap) (a : Addr) (keys : List Bytes) (t : DTy) (x : DV) : DOut :=
  match keys with
  | [] => match h[a]? with
    | none => .panic
    | some (.str _) => unmD D f t h (some a) x
    | some (.arr _) => unmD D f t h (some a) x
    | some (.dict _ _) => unmD D f t h (some a) x
    | some _ => dok (D.zero t) h
  | _ => match getH h (some a) keys with
    | .ok r => unmD D f t h r x
    | .err _ => derr x .get h
    | .panic => .panic

end Jsonutils
