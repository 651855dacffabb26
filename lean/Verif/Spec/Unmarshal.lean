import Verif.Model.Unmarshal
import Verif.Spec.Marshal

/-!
# Vocabulary for `Unmarshal`
-/

namespace Jsonutils

/-! ### Types and values of a type -/

/-- Containment by value, in a table of struct types: only earlier structs. -/
def Ty.Below (n : Nat) : Ty → Prop
  | .struct m => m < n
  | .array _ t => t.Below n
  | _ => True

def Defs.Wf (D : Defs) : Prop := ∀ n fs, D[n]? = some fs → ∀ (i : FInfo) (t : Ty), (i, t) ∈ fs → t.Below n

/-- Types with a nil value. -/
def Ty.Nilable : Ty → Prop
  | .slice _ => True
  | .map _ => True
  | .mapOther _ => True
  | .ptr _ => True
  | .any => True
  | .jobj => True
  | .jptr _ => True
  | .other => True
  | _ => False

def J.HasKind : J → JKind → Prop
  | .dict _ _, k => k = .dict
  | .arr _, k => k = .arr
  | .str _, k => k = .str
  | .int _, k => k = .int
  | .float _ _, k => k = .float
  | .bool _, k => k = .bool
  | _, _ => False

/-- A float64 that is a float32: `± m · 2^(e-149)` with `m < 2^24`, `e ≤ 253`, an infinity, or NaN. -/
def GoFloat.IsF32 : GoFloat → Prop
  | .fin _ m e => Canon f64 m e ∧ ∃ m' e', Canon f32 m' e' ∧ m * 2 ^ e * 2 ^ f32.bias = m' * 2 ^ e' * 2 ^ f64.bias
  | _ => True

mutual
/-- The value is one of the type. -/
def UV.HasTy (D : Defs) : UV → Ty → Prop
  | .nil, t => t.Nilable
  | .bool _, t => t = .bool
  | .int n, t => match t with
    | .int b => 0 < b ∧ b ≤ 64 ∧ -2 ^ (b - 1) ≤ n ∧ n < 2 ^ (b - 1)
    | .uint b => 0 < b ∧ b ≤ 64 ∧ 0 ≤ n ∧ n < 2 ^ b
    | _ => False
  | .float x, t => (t = .float64 ∧ x.Canonical) ∨ (t = .float32 ∧ x.IsF32)
  | .str _, t => t = .string
  | .seq xs spare, t => ∃ t', t = .slice t' ∧ UV.HasTys D xs t' ∧ UV.HasTys D spare t'
  | .arr xs, t => ∃ t', t = .array xs.length t' ∧ UV.HasTys D xs t'
  | .map kvs, t => SMap.Sorted kvs ∧ ∃ t', (t = .map t' ∨ t = .mapOther t') ∧ UV.HasTym D kvs t'
  | .ptr x, t => ∃ t', t = .ptr t' ∧ UV.HasTy D x t'
  | .struct vs, t => ∃ n fs, t = .struct n ∧ D[n]? = some fs ∧ UV.HasTyf D vs fs
  | .any _, t => t = .any
  | .json j, t => match t with
    | .jobj => True
    | .jptr k => j.HasKind k
    | .jval k => j.HasKind k
    | _ => False
def UV.HasTys (D : Defs) : List UV → Ty → Prop
  | [], _ => True
  | x :: xs, t => UV.HasTy D x t ∧ UV.HasTys D xs t
def UV.HasTym (D : Defs) : List (Bytes × UV) → Ty → Prop
  | [], _ => True
  | (_, x) :: xs, t => UV.HasTy D x t ∧ UV.HasTym D xs t
def UV.HasTyf (D : Defs) : List UV → List (FInfo × Ty) → Prop
  | [], fs => fs = []
  | x :: xs, fs => ∃ i t r, fs = (i, t) :: r ∧ UV.HasTy D x t ∧ UV.HasTyf D xs r
end

/-! ### What `Marshal` sees of a typed value -/

def Ty.elem : Ty → Ty
  | .slice t => t
  | .array _ t => t
  | .map t => t
  | .mapOther t => t
  | .ptr t => t
  | _ => .other

def Ty.fields (D : Defs) : Ty → List (FInfo × Ty)
  | .struct n => D.getD n []
  | _ => []

def AnyVal.toTV : AnyVal → TV
  | .bool b => .leaf (.bool b)
  | .int n => .leaf (.int n)
  | .float x => .leaf (.float64 x)
  | .str s => .leaf (.str s)
  | .objs xs => .seq (xs.map fun j => .leaf (.jsonIface j))

mutual
/-- The value as `Marshal` classifies it.  Integers are converted to int64 (so a uint64 above the maximum becomes
negative). -/
def UV.toTV (D : Defs) : UV → Ty → TV
  | .nil, _ => .leaf .nil
  | .bool b, _ => .leaf (.bool b)
  | .int n, _ => .leaf (.int (wrapI 64 n))
  | .float x, t => match t with
    | .float32 => .leaf (.float32 x)
    | _ => .leaf (.float64 x)
  | .str s, _ => .leaf (.str s)
  | .seq xs _, t => .seq (UV.toTVs D xs t.elem)
  | .arr xs, t => .seq (UV.toTVs D xs t.elem)
  | .map kvs, t => .map (UV.toTVm D kvs t.elem)
  | .ptr x, t => .ptr (UV.toTV D x t.elem)
  | .struct vs, t => .struct (UV.toTVf D vs (t.fields D))
  | .any a, _ => .iface a.toTV
  | .json j, t => match t with
    | .jval _ => .leaf (.jsonVal j)
    | _ => .leaf (.jsonIface j)
def UV.toTVs (D : Defs) : List UV → Ty → List TV
  | [], _ => []
  | x :: xs, t => UV.toTV D x t :: UV.toTVs D xs t
def UV.toTVm (D : Defs) : List (Bytes × UV) → Ty → List (Bytes × TV)
  | [], _ => []
  | (k, x) :: xs, t => (k, UV.toTV D x t) :: UV.toTVm D xs t
def UV.toTVf (D : Defs) : List UV → List (FInfo × Ty) → List (FInfo × TV)
  | x :: xs, (i, t) :: fs => (i, UV.toTV D x t) :: UV.toTVf D xs fs
  | _, _ => []
end

/-- In memory `h`, the Go value `g` is the value `v` of type `t`. -/
def IsValue (D : Defs) (h : List GV) (g : GV) (v : UV) (t : Ty) : Prop := v.HasTy D t ∧ Unf h g (v.toTV D t)

/-! ### What survives a round trip -/

/-- The document as the reader gets it: directly, or printed and parsed. -/
def J.seen (text : Bool) (j : J) : J := if text then j.reread else j

/-- Nil, JSON null, or a pointer to such: written as null or not at all, and read back as the zero value. -/
def UV.nullLike : UV → Bool
  | .nil => true
  | .json .null => true
  | .ptr x => x.nullLike
  | _ => false

/-- Nil, or a pointer to nil: `Marshal` drops it, wherever it is. -/
def UV.nilLike : UV → Bool
  | .nil => true
  | .ptr x => x.nilLike
  | _ => false

mutual
/-- Empty in the sense of the tag options (see `TV.Empty`). -/
def UV.empty (D : Defs) : UV → Ty → Option FInfo → Bool
  | .nil, _, _ => true
  | .bool b, _, info => !b && Asks info (·.omitFalse)
  | .int n, _, info => wrapI 64 n == 0 && Asks info (·.omitZero)
  | .float x, _, info => x.isZero && Asks info (·.omitZero)
  | .str s, _, info => s.isEmpty && Asks info (·.omitEmpty)
  | .seq xs _, _, info => xs.isEmpty && Asks info (·.omitEmpty)
  | .arr xs, _, info => xs.isEmpty && Asks info (·.omitEmpty)
  | .map kvs, _, info => kvs.isEmpty && Asks info (·.omitEmpty)
  | .ptr x, t, info => UV.empty D x t.elem info
  | .struct vs, t, info => UV.emptyf D vs (t.fields D) && Asks info (·.omitEmpty)
  | .any (.bool b), _, info => !b && Asks info (·.omitFalse)
  | .any (.int n), _, info => n == 0 && Asks info (·.omitZero)
  | .any (.float x), _, info => x.isZero && Asks info (·.omitZero)
  | .any (.str s), _, info => s.isEmpty && Asks info (·.omitEmpty)
  | .any (.objs xs), _, info => xs.isEmpty && Asks info (·.omitEmpty)
  | .json j, t, info => match t with
    | .jval _ => j.emptyVal && Asks info (·.omitEmpty)
    | _ => false
def UV.emptyf (D : Defs) : List UV → List (FInfo × Ty) → Bool
  | x :: xs, (i, t) :: fs => (i.ignore || i.deprecatedBy.isSome || UV.empty D x t (some i)) && UV.emptyf D xs fs
  | _, _ => true
end

/-- The field at the end of the chain of options `deprecated-by` that starts at field `q` of struct type `n`, after at most the given
number of steps. -/
def UEnv.heir (P : UEnv) (n : Nat) : Nat → Nat → Nat
  | 0, q => q
  | f + 1, q => match (P.defs.getD n [])[q]? with
    | some (i, _) => match i.ignore, i.deprecatedBy with
      | false, some k => match P.idx n k with
        | [q'] => P.heir n f q'
        | _ => q
      | _, _ => q
    | none => q

/-- Every deprecated field of a struct takes over the value of the field at the end of its chain. -/
def UEnv.inherit (P : UEnv) (t : Ty) (vs : List UV) : List UV :=
  match t with
  | .struct n => (List.range vs.length).map fun q => vs.getD (P.heir n (P.defs.getD n []).length q) .nil
  | _ => vs

mutual
/-- The value after a round trip: `oe` = by `Marshal`, otherwise by `MarshalAll`.  Slices lose their spare capacity; null-like
values and, for `Marshal`, empty ones become zero values, or, as map entries, disappear; ignored fields become zero; deprecated fields
have the value of the field at the end of their chain. -/
def UV.norm (P : UEnv) (oe : Bool) : UV → Ty → UV
  | .seq xs _, t => .seq (UV.norms P oe xs t.elem) []
  | .arr xs, t => .arr (UV.norms P oe xs t.elem)
  | .map kvs, t => .map (UV.normm P oe kvs t.elem)
  | .ptr x, t => .ptr (UV.norm P oe x t.elem)
  | .struct vs, t => .struct (P.inherit t (UV.normf P oe vs (t.fields P.defs)))
  | v, _ => v
def UV.norms (P : UEnv) (oe : Bool) : List UV → Ty → List UV
  | [], _ => []
  | x :: xs, t => (if x.nullLike then P.zero t else UV.norm P oe x t) :: UV.norms P oe xs t
def UV.normm (P : UEnv) (oe : Bool) : List (Bytes × UV) → Ty → List (Bytes × UV)
  | [], _ => []
  | (k, x) :: xs, t =>
    if oe && x.nilLike then UV.normm P oe xs t
    else (k, if x.nullLike then P.zero t else UV.norm P oe x t) :: UV.normm P oe xs t
def UV.normf (P : UEnv) (oe : Bool) : List UV → List (FInfo × Ty) → List UV
  | x :: xs, (i, t) :: fs =>
    (if i.ignore || x.nullLike || (oe && UV.empty P.defs x t (some i)) then P.zero t else UV.norm P oe x t) :: UV.normf P oe xs fs
  | _, _ => []
end

/-- The value after a round trip, at the root. -/
def UV.restored (P : UEnv) (oe : Bool) (v : UV) (t : Ty) : UV := if v.nullLike then P.zero t else v.norm P oe t

mutual
/-- With `Marshal` (`oe`), no slice or array has a nil element (it would be dropped, see C39); no JSONObject variable
holds a reference.  If the document goes through its text (`text`): no float is negative zero (its text is that of an
integer), and JSONObject variables hold plain documents without floats. -/
def UV.Restorable (oe text : Bool) : UV → Prop
  | .float x => text = true → NotNegZero x
  | .seq xs _ => UV.Restorables oe text true xs
  | .arr xs => UV.Restorables oe text true xs
  | .map kvs => UV.Restorablem oe text kvs
  | .ptr x => UV.Restorable oe text x
  | .struct vs => UV.Restorables oe text false vs
  | .json j => (∀ id, j ≠ .ptr id) ∧ (text = true → j.Plain ∧ j.NoFloat)
  | _ => True
def UV.Restorables (oe text elems : Bool) : List UV → Prop
  | [] => True
  | x :: xs => (oe = true → elems = true → x.nilLike = false) ∧ UV.Restorable oe text x ∧ UV.Restorables oe text elems xs
def UV.Restorablem (oe text : Bool) : List (Bytes × UV) → Prop
  | [] => True
  | (_, x) :: xs => UV.Restorable oe text x ∧ UV.Restorablem oe text xs
end

/-- Scalars, and pointers (to pointers ...) to them. -/
def Ty.ScalarChain : Ty → Prop
  | .bool => True
  | .int _ => True
  | .uint _ => True
  | .float32 => True
  | .float64 => True
  | .string => True
  | .ptr t => t.ScalarChain
  | _ => False

/-- Booleans, numbers and texts. -/
def Ty.Scalar : Ty → Prop
  | .bool => True
  | .int _ => True
  | .uint _ => True
  | .float32 => True
  | .float64 => True
  | .string => True
  | _ => False

/-- Types whose values survive a round trip: all pointers lead to scalars, or in one step to a slice, array, map or
struct; no `interface{}`, no map with other keys than strings, no JSONDict, JSONInt, ... by value; no float32 if the
document goes through its text. -/
def Ty.RoundTrips (text : Bool) : Ty → Prop
  | .slice t => t.RoundTrips text
  | .array _ t => t.RoundTrips text
  | .map t => t.RoundTrips text
  | .ptr t => t.RoundTrips text ∧ match t with
    | .slice _ => True
    | .array _ _ => True
    | .map _ => True
    | .struct _ => True
    | t => t.ScalarChain
  | .mapOther _ => False
  | .any => False
  | .jval _ => False
  | .other => False
  | .float32 => text = false
  | _ => True

/-- Types for which the option `,string` loses nothing: booleans (if `utils.ToBool` understands `true` and `false`), integers
but for the largest unsigned ones, texts, and pointers to them. -/
def Ty.Quotable (P : UEnv) : Ty → Prop
  | .bool => P.toBool b!"true" = true ∧ P.toBool b!"false" = false
  | .int _ => True
  | .uint b => b < 64
  | .string => True
  | .ptr t => t.Quotable P
  | _ => False

/-- The fields of the struct types: such types again; the option `,string` only where it loses nothing; distinct keys, and reflectutils
finds the field by its key; a field is deprecated by one of the same type, and the chains of deprecated fields end. -/
def UEnv.RoundTripsD (P : UEnv) (text : Bool) : Prop :=
  P.defs.Wf ∧ ∀ n fs, P.defs[n]? = some fs → DistinctNames fs ∧ ∀ (k : Nat) (i : FInfo) (t : Ty), fs[k]? = some (i, t) → i.ignore = false →
    t.RoundTrips text ∧ (i.forceString = true → t.Quotable P) ∧ P.idx n i.name = [k] ∧
    (∀ key, i.deprecatedBy = some key → ∃ (q : Nat) (i' : FInfo), fs[q]? = some (i', t) ∧ i'.ignore = false ∧ i'.name = key) ∧
    ∃ i' t', fs[P.heir n fs.length k]? = some (i', t') ∧ i'.deprecatedBy = none

/-- The same without options `deprecated-by`. -/
def UEnv.RoundTripsQ (P : UEnv) (text : Bool) : Prop :=
  P.defs.Wf ∧ ∀ n fs, P.defs[n]? = some fs → DistinctNames fs ∧ ∀ (k : Nat) (i : FInfo) (t : Ty), fs[k]? = some (i, t) → i.ignore = false →
    t.RoundTrips text ∧ (i.forceString = true → t.Quotable P) ∧ i.deprecatedBy = none ∧ P.idx n i.name = [k]

/-- The fields of the struct types: such types again; no options `,string` and `deprecated-by`; distinct keys, and reflectutils
finds the field by its key. -/
def UEnv.RoundTrips (P : UEnv) (text : Bool) : Prop :=
  P.defs.Wf ∧ ∀ n fs, P.defs[n]? = some fs → DistinctNames fs ∧ ∀ (k : Nat) (i : FInfo) (t : Ty), fs[k]? = some (i, t) → i.ignore = false →
    t.RoundTrips text ∧ i.forceString = false ∧ i.deprecatedBy = none ∧ P.idx n i.name = [k]

mutual
/-- Nothing to lose: slices without spare capacity, no pointers to nil, no JSON null; ignored fields are zero; deprecated fields have the
value of the field at the end of their chain; with `Marshal` also no nil map entries, and fields dropped as empty are zero. -/
def UV.Tidy (P : UEnv) (oe : Bool) : UV → Ty → Prop
  | .seq xs sp, t => sp = [] ∧ UV.Tidys P oe xs t.elem
  | .arr xs, t => UV.Tidys P oe xs t.elem
  | .map kvs, t => UV.Tidym P oe kvs t.elem
  | .ptr x, t => x.nullLike = false ∧ UV.Tidy P oe x t.elem
  | .struct vs, t => UV.Tidyf P oe vs (t.fields P.defs) ∧ P.inherit t vs = vs
  | .json j, _ => j ≠ .null
  | _, _ => True
def UV.Tidys (P : UEnv) (oe : Bool) : List UV → Ty → Prop
  | [], _ => True
  | x :: xs, t => UV.Tidy P oe x t ∧ UV.Tidys P oe xs t
def UV.Tidym (P : UEnv) (oe : Bool) : List (Bytes × UV) → Ty → Prop
  | [], _ => True
  | (_, x) :: xs, t => (oe = true → x.nilLike = false) ∧ UV.Tidy P oe x t ∧ UV.Tidym P oe xs t
def UV.Tidyf (P : UEnv) (oe : Bool) : List UV → List (FInfo × Ty) → Prop
  | x :: xs, (i, t) :: fs =>
    (i.ignore = true ∨ (oe = true ∧ UV.empty P.defs x t (some i) = true) → x = P.zero t) ∧ UV.Tidy P oe x t ∧ UV.Tidyf P oe xs fs
  | _, _ => True
end

/-- What `d.Unmarshal(&x)` reads without mistaking it for null: dictionaries, arrays and texts (see C46). -/
def J.Rooted : J → Prop
  | .dict _ _ => True
  | .arr _ => True
  | .str _ => True
  | _ => False

/-- The types of such documents. -/
def Ty.Rooted : Ty → Prop
  | .string => True
  | .slice _ => True
  | .array _ _ => True
  | .map _ => True
  | .struct _ => True
  | .ptr t => t.Rooted
  | _ => False

/-! ### Types and environments that exist in Go -/

/-- Integer types have 1 to 64 bits; struct types are in the table; and so on inside. -/
def Ty.Valid (D : Defs) : Ty → Prop
  | .int b => 0 < b ∧ b ≤ 64
  | .uint b => 0 < b ∧ b ≤ 64
  | .slice t => t.Valid D
  | .array _ t => t.Valid D
  | .map t => t.Valid D
  | .mapOther t => t.Valid D
  | .ptr t => t.Valid D
  | .struct n => n < D.length
  | _ => True

def Defs.Valid (D : Defs) : Prop := ∀ (n : Nat) fs, D[n]? = some fs → ∀ (i : FInfo) (t : Ty), (i, t) ∈ fs → t.Valid D

/-- The struct types are ones of Go, and reflectutils finds fields that exist. -/
def UEnv.Ok (P : UEnv) : Prop :=
  P.defs.Wf ∧ P.defs.Valid ∧ ∀ n fs, P.defs[n]? = some fs → ∀ k i, i ∈ P.idx n k → i < fs.length

/-- No unsigned integers in the type. -/
def Ty.NoUint : Ty → Prop
  | .uint _ => False
  | .slice t => t.NoUint
  | .array _ t => t.NoUint
  | .map t => t.NoUint
  | .ptr t => t.NoUint
  | _ => True

def UEnv.NoUint (P : UEnv) : Prop := ∀ (n : Nat) fs, P.defs[n]? = some fs → ∀ (i : FInfo) (t : Ty), (i, t) ∈ fs → t.NoUint

mutual
/-- No booleans and floats in the document. -/
def J.NoBoolFloat : J → Prop
  | .bool _ => False
  | .float _ _ => False
  | .arr xs => J.NoBoolFloats xs
  | .dict _ kvs => J.NoBoolFloatf kvs
  | _ => True
def J.NoBoolFloats : List J → Prop
  | [] => True
  | x :: xs => x.NoBoolFloat ∧ J.NoBoolFloats xs
def J.NoBoolFloatf : List (Bytes × J) → Prop
  | [] => True
  | (_, x) :: xs => x.NoBoolFloat ∧ J.NoBoolFloatf xs
end

/-! ### Structs -/

/-- Field `i` is written from key `k`: it is matched by `k`, or by the key named in the deprecated-by option of a field
written from `k`. -/
inductive Touches (idx : Bytes → List Nat) (tys : List (FInfo × Ty)) : Bytes → Nat → Prop where
  | here {k i} : i ∈ idx k → Touches idx tys k i
  | there {k i i' info t k'} : i' ∈ idx k → tys[i']? = some (info, t) → info.deprecatedBy = some k' → Touches idx tys k' i → Touches idx tys k i

/-- Every key of the document matches no field, or one that is not deprecated, and no two keys the same. -/
def PlainKeys (idx : Bytes → List Nat) (tys : List (FInfo × Ty)) (kvs : List (Bytes × J)) : Prop :=
  (∀ k j, (k, j) ∈ kvs → idx k = [] ∨ ∃ i info t, idx k = [i] ∧ tys[i]? = some (info, t) ∧ info.deprecatedBy = none) ∧
  kvs.Pairwise fun p q => ∀ i, idx p.1 = [i] → idx q.1 ≠ [i]

mutual
/-- The keys of every dictionary in the document are plain, for every struct type. -/
def J.PlainFor (P : UEnv) : J → Prop
  | .arr xs => J.PlainFors P xs
  | .dict _ kvs => (∀ n fs, P.defs[n]? = some fs → PlainKeys (P.idx n) fs kvs) ∧ J.PlainForf P kvs
  | _ => True
def J.PlainFors (P : UEnv) : List J → Prop
  | [] => True
  | x :: xs => x.PlainFor P ∧ J.PlainFors P xs
def J.PlainForf (P : UEnv) : List (Bytes × J) → Prop
  | [] => True
  | (_, x) :: xs => x.PlainFor P ∧ J.PlainForf P xs
end

/-- No JSONDict, JSONArray, ... by value in the type. -/
def Ty.NoJVal : Ty → Prop
  | .jval _ => False
  | .slice t => t.NoJVal
  | .array _ t => t.NoJVal
  | .map t => t.NoJVal
  | .ptr t => t.NoJVal
  | _ => True

def UEnv.NoJVal (P : UEnv) : Prop := ∀ (n : Nat) fs, P.defs[n]? = some fs → ∀ (i : FInfo) (t : Ty), (i, t) ∈ fs → t.NoJVal

/-- The variable and error of one key. -/
def fieldRes (P : UEnv) (n : Nat) (vs : List UV) (k : Bytes) (j : J) : Option (UV × Option UErr) :=
  match P.idx n k with
  | [i] => match (P.defs.getD n [])[i]?, vs[i]? with
    | some (_, t), some v => j.unm P t v
    | _, _ => none
  | _ => none

/-! ### Slices -/

/-- The element variables of a slice about to receive `n` elements: those of its backing array, whatever they hold, if that is
long enough; otherwise fresh ones. -/
def slots (P : UEnv) (t : Ty) (v : UV) (n : Nat) : List UV :=
  if n ≤ v.backing.length then v.backing.take n else List.replicate n (P.zero t)

/-- The variables `before` received the documents `js` one after the other, until the first error `e`; this left `after`. -/
def Received (P : UEnv) (t : Ty) (js : List J) (before after : List UV) (e : Option UErr) : Prop :=
  after.length = js.length ∧
  match e with
  | none => ∀ (i : Nat) (j : J) (v : UV), js[i]? = some j → before[i]? = some v → ∃ w, j.unm P t v = uok w ∧ after[i]? = some w
  | some err => ∃ (k : Nat) (j : J) (v w : UV), js[k]? = some j ∧ before[k]? = some v ∧ j.unm P t v = some (w, some err) ∧ after[k]? = some w ∧
      (∀ i, k < i → after[i]? = before[i]?) ∧
      ∀ (i : Nat) (j' : J) (v' : UV), i < k → js[i]? = some j' → before[i]? = some v' → ∃ w', j'.unm P t v' = uok w' ∧ after[i]? = some w'

end Jsonutils
