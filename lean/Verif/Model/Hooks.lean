import Verif.Model.Unmarshal
import Verif.Model.Parse

/-!
# Methods of the user's types: std_json.go, unmarshal.go:295-333 and 616-653

`Model/Unmarshal` again, for types with an `UnmarshalJSON` method, structs with an `AfterUnmarshal` method, and `time.Time`.
The methods are arbitrary functions.  Simplification: methods are found by type, and a method depends on nothing but its
receiver and argument.
-/

namespace Jsonutils

/-- The methods of the user's types, and `time.Time`. -/
structure Hooks where
  /-- `(*T).UnmarshalJSON(text)` on the variable: for which types it exists, and what it does (`none` = panic). -/
  std : Ty → Option (Bytes → UV → URes)
  /-- What the `AfterUnmarshal` methods of a struct (and of the structs embedded in it) do to its fields. -/
  after : Nat → List UV → List UV
  /-- Is the type `time.Time`? -/
  isTime : Ty → Bool
  /-- `timeutils.ParseTimeStr(s)`, the zero time if it fails. -/
  parseTime : Bytes → UV

/-- std_json.go:38-83 `indirectStdUnmarshaler`: the method found behind all pointers. -/
def Hooks.find (H : Hooks) : Ty → Option (Bytes → UV → URes)
  | .ptr t => H.find t
  | .jptr _ => none
  | t => H.std t

/-- Run `f` on the variable behind the pointers of the type. -/
def behindTy (f : UV → URes) : Ty → UV → URes
  | .ptr t, .ptr x => uptr (behindTy f t x)
  | _, v => f v

/-- std_json.go:25-31 `tryStdUnmarshal`; `text` is `jo.String()`. -/
def Hooks.tryStd (H : Hooks) (P : UEnv) (text : Bytes) (t : Ty) (v : UV) (rest : UV → URes) : URes :=
  match H.find t with
  | some h => behindTy (h text) t (P.alloc t v)
  | none => rest (P.alloc t v)

/-- unmarshal.go:295-430 `JSONString.unmarshalValue`. -/
def Hooks.strVal (H : Hooks) (P : UEnv) (s : Bytes) : Ty → UV → URes
  | .ptr t, v =>
    if H.isTime (.ptr t) then uok (if s.isEmpty then P.zero (.ptr t) else H.parseTime s)
    else H.tryStd P (J.str s).toBytes (.ptr t) v fun v => match v with
      | .ptr x => uptr (H.strVal P s t x)
      | v => unmStr P s (.ptr t) v
  | .slice t, v =>
    if H.isTime (.slice t) then uok (if s.isEmpty then P.zero (.slice t) else H.parseTime s)
    else H.tryStd P (J.str s).toBytes (.slice t) v fun v => match v.backing with
      | [] => (H.strVal P s t (P.zero t)).map fun p => (.seq [p.1] [], p.2)
      | x :: r => (H.strVal P s t x).map fun p => (.seq [p.1] r, p.2)
  | t, v =>
    if H.isTime t then uok (if s.isEmpty then P.zero t else H.parseTime s)
    else H.tryStd P (J.str s).toBytes t v fun v => unmStr P s t v

mutual
/-- `v.unmarshalValue(s, val)`: as `J.unm`, with the methods of the user's types. -/
def J.unmH (H : Hooks) (P : UEnv) : J → Ty → UV → URes
  | .null, t, _ => uok (P.zero t)
  | .ptr _, _, v => uok v
  | .int n, t, v => H.tryStd P (J.int n).toBytes t v fun v => unmInt n t v
  | .bool b, t, v => H.tryStd P (J.bool b).toBytes t v fun v => unmBool b t v
  | .float x bit, t, v => H.tryStd P (J.float x bit).toBytes t v fun v => unmFloat P x bit t v
  | .str s, t, v => H.strVal P s t v
  | .arr xs, t, v => H.tryStd P (J.arr xs).toBytes t v fun v => match t, v with
    | .ptr t', .ptr x =>
      if t'.isSeq then uptr (arrInto P xs (fun t vs => J.unmHs H P xs t vs) t' x) else uerr (.ptr x) .mismatch
    | t, v => arrInto P xs (fun t vs => J.unmHs H P xs t vs) t v
  | .dict id kvs, t, v => H.tryStd P (J.dict id kvs).toBytes t v fun v => match t, v with
    | .ptr t', .ptr x =>
      if t'.isStructOrMap then
        uptr (dictInto id kvs (fun t m => J.unmHm H P kvs t m)
          (fun n vs => (J.unmHf H P kvs n vs).map fun p => (H.after n p.1, p.2)) t' x)
      else uerr (.ptr x) .mismatch
    | t, v => dictInto id kvs (fun t m => J.unmHm H P kvs t m)
        (fun n vs => (J.unmHf H P kvs n vs).map fun p => (H.after n p.1, p.2)) t v   -- unmarshal.go:627: whether or not there were errors
/-- unmarshal.go:465-470. -/
def J.unmHs (H : Hooks) (P : UEnv) : List J → Ty → List UV → Option (List UV × Option UErr)
  | [], _, vs => some (vs, none)
  | j :: js, t, v :: vs => match J.unmH H P j t v with
    | none => none
    | some (v', some e) => some (v' :: vs, some e)
    | some (v', none) => (J.unmHs H P js t vs).map fun p => (v' :: p.1, p.2)
  | _ :: _, _, [] => none
/-- unmarshal.go:555-573. -/
def J.unmHm (H : Hooks) (P : UEnv) : List (Bytes × J) → Ty → SMap UV → Option (SMap UV × Option UErr)
  | [], _, m => some (m, none)
  | (k, j) :: r, t, m => match J.unmH H P j t (P.zero t) with
    | none => none
    | some (_, some e) => some (m, some e)
    | some (v, none) => J.unmHm H P r t (smAdd m k v)
/-- unmarshal.go:620-628. -/
def J.unmHf (H : Hooks) (P : UEnv) : List (Bytes × J) → Nat → List UV → Option (List UV × List UErr)
  | [], _, vs => some (vs, [])
  | (k, j) :: r, n, vs =>
    match setKey (P.idx n) (P.defs.getD n []) (fun t v => J.unmH H P j t v) ((P.defs.getD n []).length + 2) k [] vs with
    | none => none
    | some (vs', _, e) => (J.unmHf H P r n vs').map fun p => (p.1, match e with | some e => e :: p.2 | none => p.2)
end

/-- unmarshal.go:40-69 `v.Unmarshal(&x, keys...)`; see `J.unmarshal`. -/
def J.unmarshalH (H : Hooks) (P : UEnv) (v : J) (keys : List Bytes) (t : Ty) (x : UV) : URes :=
  match keys with
  | [] => match v with
    | .str _ => v.unmH H P t x
    | .arr _ => v.unmH H P t x
    | .dict _ _ => v.unmH H P t x
    | _ => uok (P.zero t)
  | _ => match v.get keys with
    | .ok c => c.unmH H P t x
    | .err _ => uerr x .get
    | _ => none

/-- std_json.go:104-121 `tryStdMarshal`, for a value with a `MarshalJSON` method (other than a `time.Time`) that returned `r`
(`none` = an error): the document, or a panic. -/
def stdMarshal (r : Option Bytes) : Option J :=
  match r with
  | none => none
  | some text => match parse text with
    | .ok d => some d
    | _ => none

/-! ### `AfterUnmarshal` and embedded structs -/

/-- A struct as `callStructAfterUnmarshal` sees it: its identity, whether its type declares `AfterUnmarshal` itself, and the
structs it embeds, by value or through a pointer, with `true` for a nil pointer (then only the type matters).
Simplification: the type of a nil pointer is unfolded to a finite depth. -/
inductive Emb where
  | mk (name : Nat) (own : Bool) (embedded : List (Bool × Emb))

/-- A call of an `AfterUnmarshal` method: the struct it is called on, and whether there is in fact a nil pointer in its
place. -/
structure ACall where
  on : Nat
  isNil : Bool
  deriving DecidableEq, Repr

mutual
/-- Go's method sets: the candidates for the method `AfterUnmarshal` at the least depth of embedding, and that depth. -/
def Emb.cands : Emb → Option (Nat × List ACall)
  | .mk name own es => if own then some (0, [⟨name, false⟩]) else (Emb.candss es).map fun p => (p.1 + 1, p.2)
def Emb.candss : List (Bool × Emb) → Option (Nat × List ACall)
  | [] => none
  | (isNil, e) :: es => match (Emb.cands e).map (fun p => (p.1, p.2.map fun c => ⟨c.on, c.isNil || isNil⟩)), Emb.candss es with
    | none, r => r
    | r, none => r
    | some (d, ns), some (d', ns') => if d < d' then some (d, ns) else if d' < d then some (d', ns') else some (d, ns ++ ns')
end

/-- `valPtr.MethodByName("AfterUnmarshal")`: the candidate, if it is the only one. -/
def Emb.method (e : Emb) : List ACall :=
  match e.cands with
  | some (_, [c]) => [c]
  | _ => []

mutual
/-- unmarshal.go:635-653 `callStructAfterUnmarshal`: the calls, in order.  (`val.Elem()` of a nil pointer has kind Invalid.) -/
def Emb.calls : Emb → List ACall
  | .mk name own es => Emb.callss es ++ (Emb.mk name own es).method
def Emb.callss : List (Bool × Emb) → List ACall
  | [] => []
  | (isNil, e) :: es => (if isNil then [] else Emb.calls e) ++ Emb.callss es
end

end Jsonutils
