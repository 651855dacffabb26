import Verif.Model.UnmarshalHeap
import Verif.Spec.Unmarshal

/-!
# Documents with node ids and references, and the pointer structures they describe
-/

namespace Jsonutils

/-- What a reader of a document meets, from left to right: a dictionary with a node id, or a reference. -/
inductive NodeEv where
  | defn (id : Int)
  | use (id : Int)
  deriving DecidableEq, Repr

mutual
def J.events : J → List NodeEv
  | .ptr id => [.use id]
  | .arr xs => J.eventss xs
  | .dict id kvs => (if 0 < id then [.defn id] else []) ++ J.eventsf kvs
  | _ => []
def J.eventss : List J → List NodeEv
  | [] => []
  | x :: xs => x.events ++ J.eventss xs
def J.eventsf : List (Bytes × J) → List NodeEv
  | [] => []
  | (_, x) :: xs => x.events ++ J.eventsf xs
end

/-- No reference comes before (the beginning of) the dictionary it refers to. -/
def NoForward (evs : List NodeEv) : Prop := ∀ pre id post, evs = pre ++ .defn id :: post → .use id ∉ pre

/-- The node ids, in order. -/
def defIds (evs : List NodeEv) : List Int := evs.filterMap fun e => match e with
  | .defn id => some id
  | _ => none

/-- Documents that `Unmarshal` does not treat specially at the root. -/
def J.Rootable : J → Prop
  | .str _ => True
  | .arr _ => True
  | .dict _ _ => True
  | _ => False

/-! ### Documents that fit a type -/

/-- The end of a chain of pointers. -/
def Ty.chainEnd : Ty → Ty
  | .ptr t => t.chainEnd
  | t => t

/-- A number, text or boolean that a variable of type `t` takes, possibly through pointers. -/
def FitsScalar (P : UEnv) (j : J) (t : Ty) : Prop := t.ScalarChain ∧ ∃ u, j.unm P t.chainEnd (P.zero t.chainEnd) = uok u

mutual
/-- The document fits a variable of type `t`: arrays for slices and arrays, dictionaries for structs and maps, scalars for
scalars, null for anything, pointers to one of these; every key of a struct belongs to a field of its own; node ids are at pointers, and `τ id` is
the type of the node, a struct or map, to which all references are pointers. -/
def J.Fits (P : UEnv) (τ : Int → Ty) : J → Ty → Prop
  | .null, _ => True
  | .ptr id, t => t = .ptr (τ id) ∧ (τ id).isStructOrMap = true
  | .arr xs, t => ∃ e, (t = e ∨ t = .ptr e) ∧ match e with
    | .slice t' => J.Fitss P τ xs t'
    | .array n t' => n = xs.length ∧ J.Fitss P τ xs t'
    | _ => False
  | .dict id kvs, t => ∃ e, ((t = e ∧ id ≤ 0) ∨ t = .ptr e) ∧ (0 < id → τ id = e) ∧ match e with
    | .struct n => ∃ fs, P.defs[n]? = some fs ∧ J.Fitsf P τ kvs n fs ∧ kvs.Pairwise fun p q => P.idx n p.1 ≠ P.idx n q.1
    | .map t' => SMap.Sorted kvs ∧ J.Fitsm P τ kvs t'
    | _ => False
  | .bool b, t => FitsScalar P (.bool b) t
  | .int n, t => FitsScalar P (.int n) t
  | .float x bit, t => FitsScalar P (.float x bit) t
  | .str s, t => FitsScalar P (.str s) t
def J.Fitss (P : UEnv) (τ : Int → Ty) : List J → Ty → Prop
  | [], _ => True
  | x :: xs, t => x.Fits P τ t ∧ J.Fitss P τ xs t
def J.Fitsm (P : UEnv) (τ : Int → Ty) : List (Bytes × J) → Ty → Prop
  | [], _ => True
  | (_, x) :: xs, t => x.Fits P τ t ∧ J.Fitsm P τ xs t
def J.Fitsf (P : UEnv) (τ : Int → Ty) : List (Bytes × J) → Nat → List (FInfo × Ty) → Prop
  | [], _, _ => True
  | (k, x) :: xs, n, fs => (∃ i info t, P.idx n k = [i] ∧ fs[i]? = some (info, t) ∧ info.deprecatedBy = none ∧ x.Fits P τ t) ∧ J.Fitsf P τ xs n fs
end

/-! ### What a document says about memory -/

/-- Following the pointers of type `t` from contents `c` leads to contents `c'` of type `t'`, which is no pointer type;
`o`: the location at which they are, if there was a pointer.  All objects met are in `F`. -/
inductive Thru (F : Nat → Prop) (M : List HV) : Ty → HV → Ty → HV → Option Loc → Prop where
  | here {t c} : (∀ t', t ≠ .ptr t') → Thru F M t c t c none
  | there {t l c t' c' o} : F l.base → memGet M l = some c → Thru F M t c t' c' o → Thru F M (.ptr t) (.ptr l) t' c' (o.or (some l))

/-- The scalar `j` as contents `c` of type `t`. -/
def HoldsScalar (P : UEnv) (F : Nat → Prop) (M : List HV) (j : J) (t : Ty) (c : HV) : Prop :=
  ∃ t' c' o, Thru F M t c t' c' o ∧ ∃ u, j.unm P t' (P.zero t') = uok u ∧ c' = .val u

mutual
/-- Contents `c` of type `t`, in memory `M`, are as the document says: null is the zero value; a reference is a pointer to
the location `D id`, or nil if there is none; an array is a slice or array of these elements; a dictionary is a struct with these fields, and zero for the others,
or a map with exactly these entries; and if it has a node id, it is at the location `D id`. All objects it consists of are in
`F`, without those that are only referred to. -/
def J.Holds (P : UEnv) (F : Nat → Prop) (M : List HV) (D : Int → Option Loc) : J → Ty → HV → Prop
  | .null, t, c => c = P.hzero t
  | .ptr id, t, c => match D id with
    | some l => c = .ptr l
    | none => c = P.hzero t
  | .arr xs, t, c => ∃ t' c' o, Thru F M t c t' c' o ∧
    ((∃ e b ys, t' = .slice e ∧ c' = .seq b xs.length ∧ F b ∧ M[b]? = some (.arr ys) ∧ J.Holdss P F M D xs e ys) ∨
     (∃ n e ys, t' = .array n e ∧ c' = .arr ys ∧ J.Holdss P F M D xs e ys))
  | .dict id kvs, t, c => ∃ t' c' o, Thru F M t c t' c' o ∧ (0 < id → o.isSome ∧ D id = o) ∧
    ((∃ n fs vs, t' = .struct n ∧ P.defs[n]? = some fs ∧ c' = .struct vs ∧ vs.length = fs.length ∧ J.Holdsf P F M D kvs n fs vs ∧
        ∀ i info ti, fs[i]? = some (info, ti) → (∀ p ∈ kvs, P.idx n p.1 ≠ [i]) → vs[i]? = some (P.hzero ti)) ∨
     (∃ e b m, t' = .map e ∧ c' = .map b ∧ F b ∧ M[b]? = some (.mapObj m) ∧ J.Holdsm P F M D kvs e m))
  | .bool b, t, c => HoldsScalar P F M (.bool b) t c
  | .int n, t, c => HoldsScalar P F M (.int n) t c
  | .float x bit, t, c => HoldsScalar P F M (.float x bit) t c
  | .str s, t, c => HoldsScalar P F M (.str s) t c
def J.Holdss (P : UEnv) (F : Nat → Prop) (M : List HV) (D : Int → Option Loc) : List J → Ty → List HV → Prop
  | [], _, ys => ys = []
  | x :: xs, t, ys => ∃ c r, ys = c :: r ∧ x.Holds P F M D t c ∧ J.Holdss P F M D xs t r
def J.Holdsm (P : UEnv) (F : Nat → Prop) (M : List HV) (D : Int → Option Loc) : List (Bytes × J) → Ty → List (Bytes × HV) → Prop
  | [], _, ys => ys = []
  | (k, x) :: xs, t, ys => ∃ c r, ys = (k, c) :: r ∧ x.Holds P F M D t c ∧ J.Holdsm P F M D xs t r
def J.Holdsf (P : UEnv) (F : Nat → Prop) (M : List HV) (D : Int → Option Loc) : List (Bytes × J) → Nat → List (FInfo × Ty) → List HV → Prop
  | [], _, _, _ => True
  | (k, x) :: xs, n, fs, vs =>
    (∃ i info t c, P.idx n k = [i] ∧ fs[i]? = some (info, t) ∧ vs[i]? = some c ∧ x.Holds P F M D t c) ∧ J.Holdsf P F M D xs n fs vs
end

end Jsonutils
