import Verif.Model.SharedMarshal
import Verif.Spec.SharedData
import Verif.Spec.Marshal

/-!
# Vocabulary for documents made by `Marshal`
-/

namespace Jsonutils

/-- Nil, or a pointer to nil: `Marshal` drops it from slices and maps. -/
def DV.nilLike : DV → Bool
  | .nil => true
  | .ptr x => x.nilLike
  | _ => false

/-- `x.Put D oe t s p b`: the variable of type `t` with content `x` holds the document object `b` at the place that `Marshal` (`oe`) or
`MarshalAll` writes to position `p` of the result.  In slices nil elements are skipped by `Marshal`.  Nothing is put below a field with
option `,string` (`s`), whose content is written as text, unless the field itself is the document. -/
inductive DV.Put (D : DEnv) (oe : Bool) : DTy → Bool → DV → List Move → Addr → Prop where
  | here (t : DTy) (s : Bool) (b : Addr) : Put D oe t s (.ref b) [] b
  | ptr {t : DTy} {s : Bool} {x : DV} {p : List Move} {b : Addr} : Put D oe t s x p b → Put D oe (.ptr t) s (.ptr x) p b
  | elem {t : DTy} {xs sp : List DV} {i : Nat} {x : DV} {p : List Move} {b : Addr} : xs[i]? = some x → Put D oe t false x p b →
      Put D oe (.slice t) false (.seq xs sp) (.elem ((xs.take i).filter fun y => !(oe && y.nilLike)).length :: p) b
  | entry {t : DTy} {m : List (Bytes × DV)} {k : Bytes} {x : DV} {p : List Move} {b : Addr} : (k, x) ∈ m → Put D oe t false x p b →
      Put D oe (.map t) false (.map m) (.key k :: p) b
  | field {n i : Nat} {fs : List DV} {tys : List (FInfo × DTy)} {info : FInfo} {t : DTy} {x : DV} {p : List Move} {b : Addr} :
      D.defs[n]? = some tys → tys[i]? = some (info, t) → fs[i]? = some x → info.Proper → Put D oe t info.forceString x p b →
      Put D oe (.struct n) false (.struct fs) (.key info.name :: p) b
  /-- A field deprecated by another one is written with the value of that one. -/
  | old {n i j : Nat} {fs : List DV} {tys : List (FInfo × DTy)} {info info' : FInfo} {t t' : DTy} {x : DV} {p : List Move} {b : Addr} {k : Bytes} :
      D.defs[n]? = some tys → tys[j]? = some (info', t') → info'.ignore = false → info'.deprecatedBy = some k → DepEnd (depMap tys) k info.name →
      tys[i]? = some (info, t) → fs[i]? = some x → info.Proper → Put D oe t info.forceString x p b →
      Put D oe (.struct n) false (.struct fs) (.key info'.name :: p) b

/-- The fields of each struct type have different keys. -/
def DEnv.Distinct (D : DEnv) : Prop := ∀ (n : Nat) tys, D.defs[n]? = some tys → DistinctNames tys

end Jsonutils
