import Verif.Spec.Marshal

/-!
# One document inside another

`j` is `j'` with some members of dictionaries and some elements of arrays left out, at any depth.
-/

namespace Jsonutils

mutual
/-- `j` is `j'` with things left out: the same document, a dictionary whose keys `j'` has too, each with a value inside
that of `j'`, or an array that has some of the elements of `j'` in the same order, each inside the original. -/
inductive J.Within : J → J → Prop where
  | same (j) : J.Within j j
  | dict {id : Int} {m m' : SMap J} : (∀ k, smGet m k ≠ none → smGet m' k ≠ none) →
      (∀ k v v', smGet m k = some v → smGet m' k = some v' → J.Within v v') → J.Within (.dict id m) (.dict id m')
  | arr {xs ys} : J.Withins xs ys → J.Within (.arr xs) (.arr ys)
inductive J.Withins : List J → List J → Prop where
  | nil : J.Withins [] []
  | skip {xs y ys} : J.Withins xs ys → J.Withins xs (y :: ys)
  | keep {x xs y ys} : J.Within x y → J.Withins xs ys → J.Withins (x :: xs) (y :: ys)
end

/-- A value that is no container, possibly behind pointers and interfaces. -/
def TV.Scalar : TV → Prop
  | .leaf _ => True
  | .iface x => x.Scalar
  | .ptr x => x.Scalar
  | _ => False

mutual
/-- Ordinary data: the keys of each map and struct are distinct, and the option `,string` is put on scalars only. -/
def TV.Regular : TV → Prop
  | .leaf _ => True
  | .seq xs => TV.Regulars xs
  | .map kvs => (kvs.map (·.1)).Nodup ∧ TV.Regularm kvs
  | .struct fs => DistinctNames fs ∧ TV.Regularf fs
  | .iface x => x.Regular
  | .ptr x => x.Regular
def TV.Regulars : List TV → Prop
  | [] => True
  | x :: xs => x.Regular ∧ TV.Regulars xs
def TV.Regularm : List (Bytes × TV) → Prop
  | [] => True
  | (_, x) :: xs => x.Regular ∧ TV.Regularm xs
def TV.Regularf : List (FInfo × TV) → Prop
  | [] => True
  | (i, x) :: xs => (i.ignore = true ∨ i.deprecatedBy ≠ none ∨ (i.forceString = true → x.Scalar) ∧ x.Regular) ∧ TV.Regularf xs
end

/-- In memory: no container, possibly behind pointers and interfaces. -/
inductive GV.ScalarIn (h : List GV) : GV → Prop where
  | leaf (l) : GV.ScalarIn h (.leaf l)
  | jsonPtr (j) : GV.ScalarIn h (.jsonPtr j)
  | iface {x} : GV.ScalarIn h x → GV.ScalarIn h (.iface x)
  | ptr {a g} : h[a]? = some g → GV.ScalarIn h g → GV.ScalarIn h (.ptr a)

mutual
/-- Ordinary data, up to the next pointers: the keys of each map and struct are distinct, and the option `,string` is put on scalars only. -/
def GV.Regular (h : List GV) : GV → Prop
  | .seq xs => GV.Regulars h xs
  | .map kvs => (kvs.map (·.1)).Nodup ∧ GV.Regularm h kvs
  | .struct fs => DistinctNames fs ∧ GV.Regularf h fs
  | .iface x => x.Regular h
  | _ => True
def GV.Regulars (h : List GV) : List GV → Prop
  | [] => True
  | x :: xs => x.Regular h ∧ GV.Regulars h xs
def GV.Regularm (h : List GV) : List (Bytes × GV) → Prop
  | [] => True
  | (_, x) :: xs => x.Regular h ∧ GV.Regularm h xs
def GV.Regularf (h : List GV) : List (FInfo × GV) → Prop
  | [] => True
  | (i, x) :: xs => (i.ignore = true ∨ i.deprecatedBy ≠ none ∨ (i.forceString = true → x.ScalarIn h) ∧ x.Regular h) ∧ GV.Regularf h xs
end

/-- Ordinary data everywhere in memory. -/
def GraphRegular (h : List GV) (g : GV) : Prop := g.Regular h ∧ ∀ x ∈ h, x.Regular h

end Jsonutils
