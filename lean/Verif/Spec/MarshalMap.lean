import Verif.Model.MarshalMap
import Verif.Spec.Marshal

/-!
# Vocabulary for maps with arbitrary keys
-/

namespace Jsonutils

/-- What `sort.Sort` promises: the same entries, and none before a smaller one.  Nothing about the order of ties. -/
def GoSort (sort : List (MapKey × GV) → List (MapKey × GV)) : Prop :=
  ∀ l, (sort l).Perm l ∧ (sort l).Pairwise fun a b => blt b.1.sortText a.1.sortText = false

mutual
/-- The same value, but for the order in which the entries of maps are listed. -/
inductive GU.Same : GU → GU → Prop where
  | leaf (l) : Same (.leaf l) (.leaf l)
  | jsonPtr (j) : Same (.jsonPtr j) (.jsonPtr j)
  | seq {xs ys} : Sames xs ys → Same (.seq xs) (.seq ys)
  | map {xs zs ys} : Samem xs zs → zs.Perm ys → Same (.map xs) (.map ys)
  | struct {xs ys} : Samef xs ys → Same (.struct xs) (.struct ys)
  | iface {x y} : Same x y → Same (.iface x) (.iface y)
  | ptr (a) : Same (.ptr a) (.ptr a)
  | shared (a) : Same (.shared a) (.shared a)
inductive GU.Sames : List GU → List GU → Prop where
  | nil : Sames [] []
  | cons {x xs y ys} : GU.Same x y → Sames xs ys → Sames (x :: xs) (y :: ys)
inductive GU.Samem : List (MapKey × GU) → List (MapKey × GU) → Prop where
  | nil : Samem [] []
  | cons {k x xs y ys} : GU.Same x y → Samem xs ys → Samem ((k, x) :: xs) ((k, y) :: ys)
inductive GU.Samef : List (FInfo × GU) → List (FInfo × GU) → Prop where
  | nil : Samef [] []
  | cons {i x xs y ys} : GU.Same x y → Samef xs ys → Samef ((i, x) :: xs) ((i, y) :: ys)
end

/-- The key is of string kind. -/
def MapKey.IsText : MapKey → Prop
  | .text _ _ => True
  | _ => False

/-- The text of a key of string kind. -/
def MapKey.raw : MapKey → Bytes
  | .text s _ => s
  | _ => []

mutual
/-- All maps inside a value (not looking through pointers) have keys of string kind, no two with the same text — as Go
guarantees. -/
def GU.TextKeys : GU → Prop
  | .seq xs => GU.TextKeyss xs
  | .map kvs => (∀ e ∈ kvs, e.1.IsText) ∧ (kvs.map (·.1.raw)).Nodup ∧ GU.TextKeysm kvs
  | .struct fs => GU.TextKeysf fs
  | .iface x => x.TextKeys
  | _ => True
def GU.TextKeyss : List GU → Prop
  | [] => True
  | x :: xs => x.TextKeys ∧ GU.TextKeyss xs
def GU.TextKeysm : List (MapKey × GU) → Prop
  | [] => True
  | (_, x) :: xs => x.TextKeys ∧ GU.TextKeysm xs
def GU.TextKeysf : List (FInfo × GU) → Prop
  | [] => True
  | (_, x) :: xs => x.TextKeys ∧ GU.TextKeysf xs
end

mutual
/-- No two keys of a map are written alike, in all maps inside a value (not looking through pointers). -/
def GU.KeysApart : GU → Prop
  | .seq xs => GU.KeysAparts xs
  | .map kvs => (kvs.map (·.1.shown)).Nodup ∧ GU.KeysApartm kvs
  | .struct fs => GU.KeysApartf fs
  | .iface x => x.KeysApart
  | _ => True
def GU.KeysAparts : List GU → Prop
  | [] => True
  | x :: xs => x.KeysApart ∧ GU.KeysAparts xs
def GU.KeysApartm : List (MapKey × GU) → Prop
  | [] => True
  | (_, x) :: xs => x.KeysApart ∧ GU.KeysApartm xs
def GU.KeysApartf : List (FInfo × GU) → Prop
  | [] => True
  | (_, x) :: xs => x.KeysApart ∧ GU.KeysApartf xs
end

/-- Following the pointers of the value never runs into a cycle. -/
def GU.AcyclicIn (sort : List (MapKey × GV) → List (MapKey × GV)) (h : List GU) (u : GU) : Prop := Acyclic (GU.walks sort h) (u.walk sort)

/-- The value is empty in the sense of `GV.IsEmpty` (outside of a struct field: nil, an undefined tristate, or a pointer or
interface to such). -/
def GU.IsEmptyIn (sort : List (MapKey × GV) → List (MapKey × GV)) (h : List GU) (u : GU) : Prop := (u.walk sort).IsEmpty (GU.walks sort h) none

end Jsonutils
