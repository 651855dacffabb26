import Verif.Spec.Unmarshal

/-! # Fields under several names: what `deprecated-by` should do when a document is read -/

namespace Jsonutils

/-- The key leads to another key: a field matching it is deprecated by that key, or by a key that leads to it.  Every key leads to itself. -/
inductive KeyLeads (idx : Bytes → List Nat) (tys : List (FInfo × Ty)) : Bytes → Bytes → Prop where
  | self (k) : KeyLeads idx tys k k
  | next {k i info t k' k''} : i ∈ idx k → tys[i]? = some (info, t) → info.deprecatedBy = some k' → KeyLeads idx tys k' k'' → KeyLeads idx tys k k''

/-- Among the keys the key leads to, no two match the same field, and none matches a field twice. -/
def OneName (idx : Bytes → List Nat) (tys : List (FInfo × Ty)) (k : Bytes) : Prop :=
  (∀ k1, KeyLeads idx tys k k1 → (idx k1).Nodup) ∧
  ∀ k1 k2 i, KeyLeads idx tys k k1 → KeyLeads idx tys k k2 → i ∈ idx k1 → i ∈ idx k2 → k1 = k2

/-- The variable content `v` of type `t` becomes `w` when the documents of those keys for which `sel` holds are unmarshalled into it, one
after the other, without errors. -/
inductive Fed (P : UEnv) (t : Ty) (sel : Bytes → Prop) : List (Bytes × J) → UV → UV → Prop where
  | nil (v) : Fed P t sel [] v v
  | skip {k j r v w} : ¬ sel k → Fed P t sel r v w → Fed P t sel ((k, j) :: r) v w
  | feed {k j r v v' w} : sel k → j.unm P t v = uok v' → Fed P t sel r v' w → Fed P t sel ((k, j) :: r) v w

/-- A variable of this type is overwritten by what is unmarshalled into it: a boolean, number or text. -/
def Ty.Overwritten : Ty → Prop
  | .bool => True
  | .int _ => True
  | .uint _ => True
  | .float32 => True
  | .float64 => True
  | .string => True
  | _ => False

end Jsonutils
