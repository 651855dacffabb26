import Verif.Model.HookMarshal
import Verif.Spec.Hooks

/-!
# Vocabulary for the round trip through the methods of the user's types
-/

namespace Jsonutils

/-- In memory `h`, the Go value `g` is the value `v` of type `t`, whose methods are those of `M`. -/
def IsValueH (M : Codec) (D : Defs) (h : List GV) (g : GV) (v : UV) (t : Ty) : Prop := v.HasTy D t ∧ Unf h g (v.toTVH M D t)

/-- Scalars, arrays and structs: types without a nil value. -/
def Ty.Solid : Ty → Prop
  | .bool => True
  | .int _ => True
  | .uint _ => True
  | .float32 => True
  | .float64 => True
  | .string => True
  | .array _ _ => True
  | .struct _ => True
  | _ => False

/-- `T` has both methods, `MarshalJSON` with a value receiver. -/
def Codec.ByValue (M : Codec) (T : Ty) : Prop := T.Solid ∧ (∃ m, M.enc T = some (false, m)) ∧ (M.std T).isSome = true

/-- `T` has both methods, so that `*T` has them, too. -/
def Codec.ByPtr (M : Codec) (T : Ty) : Prop := T.Solid ∧ (M.enc T).isSome = true ∧ (M.std T).isSome = true

/-- `T` has no methods, and is not `time.Time`. -/
def Codec.Bare (M : Codec) (T : Ty) : Prop := M.std T = none ∧ M.enc T = none ∧ M.isTime T = false

/-- Types without methods to which there may be pointers: see `Ty.RoundTrips`. -/
def Codec.Pointable (M : Codec) : Ty → Prop
  | .slice _ => True
  | .array _ _ => True
  | .map _ => True
  | .struct n => M.isTime (.struct n) = false
  | t => t.ScalarChain

/-- Types whose values survive a round trip: as `Ty.RoundTrips`; moreover `time.Time`, and types with both methods, and pointers
to pointers to ... them. -/
def Ty.RoundTripsH (M : Codec) (text : Bool) : Ty → Prop
  | .slice t => M.Bare (.slice t) ∧ t.RoundTripsH M text
  | .map t => M.Bare (.map t) ∧ t.RoundTripsH M text
  | .array n t => M.ByValue (.array n t) ∨ M.Bare (.array n t) ∧ t.RoundTripsH M text
  | .struct n => M.isTime (.struct n) = true ∨ M.ByValue (.struct n) ∨ M.Bare (.struct n)
  | .ptr t => M.ByPtr t ∨ t.RoundTripsH M text ∧
    ((∃ T k, t = Ty.ptrs T (k + 1) ∧ M.ByPtr T) ∨ M.find t = none ∧ M.Pointable t)
  | .mapOther _ => False
  | .any => False
  | .jval _ => False
  | .other => False
  | .float32 => M.ByValue .float32 ∨ M.Bare .float32 ∧ text = false
  | .jobj => M.Bare .jobj
  | .jptr k => M.Bare (.jptr k)
  | t => M.ByValue t ∨ M.Bare t

/-- The fields of the struct types, as in `UEnv.RoundTrips`. -/
def UEnv.RoundTripsH (P : UEnv) (M : Codec) (text : Bool) : Prop :=
  M.Ok ∧ P.defs.Wf ∧ ∀ n fs, P.defs[n]? = some fs → DistinctNames fs ∧ ∀ (k : Nat) (i : FInfo) (t : Ty), fs[k]? = some (i, t) → i.ignore = false →
    t.RoundTripsH M text ∧ i.forceString = false ∧ i.deprecatedBy = none ∧ P.idx n i.name = [k]

/-- The methods of `T` agree on `x`: `MarshalJSON` returns a JSON text, of a document `d` other than null and a reference, and
`UnmarshalJSON` makes `x` of the text of `d` (or of what comes back when `d` is printed and parsed). -/
def Codec.Agree (M : Codec) (P : UEnv) (text : Bool) (T : Ty) (x : UV) : Prop :=
  ∃ p m h s d, M.enc T = some (p, m) ∧ M.std T = some h ∧ m x = some s ∧ parse s = .ok d ∧ d ≠ .null ∧ (∀ id, d ≠ .ptr id) ∧
    h (d.seen text).toBytes (P.zero T) = uok x

/-- The same for a value of type `T` or `*T`; nothing is asked of times. -/
def Codec.AgreeAt (M : Codec) (P : UEnv) (text : Bool) (t : Ty) (v : UV) : Prop :=
  M.isTime t = true ∨ match t, v with
    | .ptr T, .ptr x => M.Agree P text T x
    | T, x => M.Agree P text T x

mutual
/-- As `UV.Restorable`, where values with methods need nothing but that their methods agree. -/
def UV.RestorableH (M : Codec) (P : UEnv) (oe text : Bool) : UV → Ty → Prop
  | .seq xs sp, t => if M.direct t then M.AgreeAt P text t (.seq xs sp) else UV.RestorableHs M P oe text xs t.elem
  | .arr xs, t => if M.direct t then M.AgreeAt P text t (.arr xs) else UV.RestorableHs M P oe text xs t.elem
  | .map kvs, t => if M.direct t then M.AgreeAt P text t (.map kvs) else UV.RestorableHm M P oe text kvs t.elem
  | .ptr x, t => if M.direct t then M.AgreeAt P text t (.ptr x) else UV.RestorableH M P oe text x t.elem
  | .struct vs, t => if M.direct t then M.AgreeAt P text t (.struct vs) else UV.RestorableHf M P oe text vs (t.fields P.defs)
  | .nil, _ => True
  | v, t => if M.direct t then M.AgreeAt P text t v else v.Restorable oe text
def UV.RestorableHs (M : Codec) (P : UEnv) (oe text : Bool) : List UV → Ty → Prop
  | [], _ => True
  | x :: xs, t => (oe = true → x.nilLike = false) ∧ UV.RestorableH M P oe text x t ∧ UV.RestorableHs M P oe text xs t
def UV.RestorableHm (M : Codec) (P : UEnv) (oe text : Bool) : List (Bytes × UV) → Ty → Prop
  | [], _ => True
  | (_, x) :: xs, t => UV.RestorableH M P oe text x t ∧ UV.RestorableHm M P oe text xs t
def UV.RestorableHf (M : Codec) (P : UEnv) (oe text : Bool) : List UV → List (FInfo × Ty) → Prop
  | x :: xs, (i, t) :: fs => (i.ignore = false → UV.RestorableH M P oe text x t) ∧ UV.RestorableHf M P oe text xs fs
  | _, _ => True
end

/-- What comes back of a value with methods: the value itself; of a time: what `ParseTimeStr` makes of its text. -/
def Codec.back (M : Codec) (P : UEnv) (t : Ty) (v : UV) : UV :=
  if M.isTime t then match M.fmt v with
    | none => P.zero t
    | some s => if s = [] then P.zero t else M.parseTime s
  else v

/-- Of these only the zero time counts as empty. -/
def Codec.zeroTime (M : Codec) (t : Ty) (v : UV) : Bool := M.isTime t && (M.fmt v).isNone

mutual
/-- Empty in the sense of the tag options. -/
def UV.emptyH (M : Codec) (D : Defs) : UV → Ty → Option FInfo → Bool
  | .seq xs sp, t, info => if M.direct t then M.zeroTime t (.seq xs sp) && Asks info (·.omitEmpty) else xs.isEmpty && Asks info (·.omitEmpty)
  | .arr xs, t, info => if M.direct t then M.zeroTime t (.arr xs) && Asks info (·.omitEmpty) else xs.isEmpty && Asks info (·.omitEmpty)
  | .map kvs, t, info => if M.direct t then M.zeroTime t (.map kvs) && Asks info (·.omitEmpty) else kvs.isEmpty && Asks info (·.omitEmpty)
  | .ptr x, t, info => if M.direct t then M.zeroTime t (.ptr x) && Asks info (·.omitEmpty) else UV.emptyH M D x t.elem info
  | .struct vs, t, info => if M.direct t then M.zeroTime t (.struct vs) && Asks info (·.omitEmpty) else UV.emptyHf M D vs (t.fields D) && Asks info (·.omitEmpty)
  | .nil, _, _ => true
  | v, t, info => if M.direct t then M.zeroTime t v && Asks info (·.omitEmpty) else v.empty D t info
def UV.emptyHf (M : Codec) (D : Defs) : List UV → List (FInfo × Ty) → Bool
  | x :: xs, (i, t) :: fs => (i.ignore || i.deprecatedBy.isSome || UV.emptyH M D x t (some i)) && UV.emptyHf M D xs fs
  | _, _ => true
end

mutual
/-- The value after a round trip: as `UV.norm`; but values with methods, and times, come back as `Codec.back` says, and structs after
`AfterUnmarshal`. -/
def UV.normH (M : Codec) (P : UEnv) (oe : Bool) : UV → Ty → UV
  | .seq xs sp, t => if M.direct t then M.back P t (.seq xs sp) else .seq (UV.normHs M P oe xs t.elem) []
  | .arr xs, t => if M.direct t then M.back P t (.arr xs) else .arr (UV.normHs M P oe xs t.elem)
  | .map kvs, t => if M.direct t then M.back P t (.map kvs) else .map (UV.normHm M P oe kvs t.elem)
  | .ptr x, t => if M.direct t then M.back P t (.ptr x) else .ptr (UV.normH M P oe x t.elem)
  | .struct vs, t => if M.direct t then M.back P t (.struct vs)
    else .struct (match t with
      | .struct n => M.after n (UV.normHf M P oe vs (t.fields P.defs))
      | _ => UV.normHf M P oe vs (t.fields P.defs))
  | v, t => if M.direct t then M.back P t v else v
def UV.normHs (M : Codec) (P : UEnv) (oe : Bool) : List UV → Ty → List UV
  | [], _ => []
  | x :: xs, t => (if x.nullLike then P.zero t else UV.normH M P oe x t) :: UV.normHs M P oe xs t
def UV.normHm (M : Codec) (P : UEnv) (oe : Bool) : List (Bytes × UV) → Ty → List (Bytes × UV)
  | [], _ => []
  | (k, x) :: xs, t =>
    if oe && x.nilLike then UV.normHm M P oe xs t
    else (k, if x.nullLike then P.zero t else UV.normH M P oe x t) :: UV.normHm M P oe xs t
def UV.normHf (M : Codec) (P : UEnv) (oe : Bool) : List UV → List (FInfo × Ty) → List UV
  | x :: xs, (i, t) :: fs =>
    (if i.ignore || x.nullLike || (oe && UV.emptyH M P.defs x t (some i)) then P.zero t else UV.normH M P oe x t) :: UV.normHf M P oe xs fs
  | _, _ => []
end

/-- The value after a round trip, at the root. -/
def UV.restoredH (M : Codec) (P : UEnv) (oe : Bool) (v : UV) (t : Ty) : UV := if v.nullLike then P.zero t else v.normH M P oe t

mutual
/-- Nothing to lose: as `UV.Tidy`, moreover times survive their text, and `AfterUnmarshal` has nothing to do. -/
def UV.TidyH (M : Codec) (P : UEnv) (oe : Bool) : UV → Ty → Prop
  | .seq xs sp, t => if M.direct t then M.back P t (.seq xs sp) = .seq xs sp else sp = [] ∧ UV.TidyHs M P oe xs t.elem
  | .arr xs, t => if M.direct t then M.back P t (.arr xs) = .arr xs else UV.TidyHs M P oe xs t.elem
  | .map kvs, t => if M.direct t then M.back P t (.map kvs) = .map kvs else UV.TidyHm M P oe kvs t.elem
  | .ptr x, t => x.nullLike = false ∧ if M.direct t then M.back P t (.ptr x) = .ptr x else UV.TidyH M P oe x t.elem
  | .struct vs, t => if M.direct t then M.back P t (.struct vs) = .struct vs
      else UV.TidyHf M P oe vs (t.fields P.defs) ∧ ∀ n, t = .struct n → M.after n vs = vs
  | .json j, t => j ≠ .null ∧ if M.direct t then M.back P t (.json j) = .json j else True
  | v, t => if M.direct t then M.back P t v = v else True
def UV.TidyHs (M : Codec) (P : UEnv) (oe : Bool) : List UV → Ty → Prop
  | [], _ => True
  | x :: xs, t => UV.TidyH M P oe x t ∧ UV.TidyHs M P oe xs t
def UV.TidyHm (M : Codec) (P : UEnv) (oe : Bool) : List (Bytes × UV) → Ty → Prop
  | [], _ => True
  | (_, x) :: xs, t => (oe = true → x.nilLike = false) ∧ UV.TidyH M P oe x t ∧ UV.TidyHm M P oe xs t
def UV.TidyHf (M : Codec) (P : UEnv) (oe : Bool) : List UV → List (FInfo × Ty) → Prop
  | x :: xs, (i, t) :: fs =>
    (i.ignore = true ∨ (oe = true ∧ UV.emptyH M P.defs x t (some i) = true) → x = P.zero t) ∧ UV.TidyH M P oe x t ∧ UV.TidyHf M P oe xs fs
  | _, _ => True
end

end Jsonutils
