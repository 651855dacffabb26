import Verif.Model.Live
import Verif.Spec.Marshal
import Verif.Spec.Dict

/-!
# Vocabulary for documents with live references
-/

namespace Jsonutils

/-! ### What a document stands for -/

/-- What is left of a Go value when interfaces are opened and pointers followed. -/
inductive Strip (h : List GV) : GV → GV → Prop
  | leaf (l) : Strip h (.leaf l) (.leaf l)
  | jsonPtr (j) : Strip h (.jsonPtr j) (.jsonPtr j)
  | seq (xs) : Strip h (.seq xs) (.seq xs)
  | map (kvs) : Strip h (.map kvs) (.map kvs)
  | struct (fs) : Strip h (.struct fs) (.struct fs)
  | iface {x y} : Strip h x y → Strip h (.iface x) y
  | ptr {a x y} : h[a]? = some x → Strip h x y → Strip h (.ptr a) y
  | shared {a x y} : h[a]? = some x → Strip h x y → Strip h (.shared a) y

/-- Empty, for a field with options `info`: as `GV.IsEmpty`, but fields that are not written do not count. -/
inductive EmptyV (h : List GV) : GV → Option FInfo → Prop
  | leaf {l info} : l.Empty info → EmptyV h (.leaf l) info
  | seq {info} : Asks info (·.omitEmpty) = true → EmptyV h (.seq []) info
  | map {info} : Asks info (·.omitEmpty) = true → EmptyV h (.map []) info
  | struct {fs info} : Asks info (·.omitEmpty) = true → (∀ i x, (i, x) ∈ fs → i.ignore = false → EmptyV h x (some i)) → EmptyV h (.struct fs) info
  | iface {x info} : EmptyV h x info → EmptyV h (.iface x) info
  | ptr {a x info} : h[a]? = some x → EmptyV h x info → EmptyV h (.ptr a) info
  | shared {a x info} : h[a]? = some x → EmptyV h x info → EmptyV h (.shared a) info

section
variable (h : List GV) (oe : Bool) (R : J → GV → Prop)

/-- The elements of an array stand for those of a slice, in order, without the empty ones that `Marshal` drops. -/
inductive Elems : List J → List GV → Prop
  | nil : Elems [] []
  | keep {y ys x xs} : R y x → Elems ys xs → Elems (y :: ys) (x :: xs)
  | drop {ys x xs} : oe = true → EmptyV h x none → Elems ys xs → Elems ys (x :: xs)

/-- The entries of a dictionary stand for those of `src`: every one, without the empty ones that `Marshal` drops, and no others. -/
structure Entries (es : SMap J) (src : List (Bytes × Option FInfo × GV)) : Prop where
  sorted : SMap.Sorted es
  source : ∀ k y, (k, y) ∈ es → ∃ info x, (k, info, x) ∈ src ∧ R y x
  complete : ∀ k info x, (k, info, x) ∈ src → (∃ y, (k, y) ∈ es ∧ R y x) ∨ (oe = true ∧ EmptyV h x info)

/-- The entries of a map. -/
def mapSrc (kvs : List (Bytes × GV)) : List (Bytes × Option FInfo × GV) := kvs.map fun p => (p.1, none, p.2)
/-- The fields of a struct that are written. -/
def fieldSrc (fs : List (FInfo × GV)) : List (Bytes × Option FInfo × GV) :=
  (fs.filter fun f => !f.1.ignore).map fun f => (f.1.name, some f.1, f.2)

/-- `R y x`: the document `y` stands for the Go value `x`.  What one finds with the accessors in the one stands for what one
finds with selectors, indices and dereferences in the other, for ever. -/
def Mirrors (D : Int → Option J) : Prop := ∀ y x, R y x → ∃ x', Strip h x x' ∧ match x' with
  | .leaf l => l.marshal none false = some y
  | .jsonPtr j => y = j
  | .seq xs => ∃ ys, y = .arr ys ∧ Elems h oe R ys xs
  | .map kvs => ∃ es, y.getMapL D [] = .ok es ∧ Entries h oe R es (mapSrc kvs)
  | .struct fs => ∃ es, y.getMapL D [] = .ok es ∧ Entries h oe R es (fieldSrc fs)
  | _ => False
end

/-! ### Paths -/

/-- From `x` by the path `p` of field names, map keys and indices to `x'`, through interfaces and pointers. -/
inductive GoNav (h : List GV) : GV → List Sel → GV → Prop
  | here {x} : GoNav h x [] x
  | field {x fs i x1 p x2} : Strip h x (.struct fs) → (i, x1) ∈ fs → i.ignore = false → GoNav h x1 p x2 → GoNav h x (.key i.name :: p) x2
  | entry {x kvs k x1 p x2} : Strip h x (.map kvs) → (k, x1) ∈ kvs → GoNav h x1 p x2 → GoNav h x (.key k :: p) x2
  | elem {x xs n x1 p x2} : Strip h x (.seq xs) → xs[n]? = some x1 → GoNav h x1 p x2 → GoNav h x (.idx n :: p) x2

/-- The path taken with one accessor call for each step. -/
def docNav (D : Int → Option J) : J → List Sel → Option J
  | y, [] => some y
  | y, .key k :: p => match y.getL D [k] with
    | .ok y' => docNav D y' p
    | _ => none
  | y, .idx n :: p => match y.getAtL D (n : Nat) [] with
    | .ok y' => docNav D y' p
    | _ => none

/-- The document `y` shows the Go value `x`: scalars have their value, arrays the length, and dictionaries the keys. -/
def Stands (h : List GV) (D : Int → Option J) (y : J) (x : GV) : Prop := ∃ x', Strip h x x' ∧ match x' with
  | .leaf l => l.marshal none false = some y
  | .jsonPtr j => y = j
  | .seq xs => ∃ ys, y = .arr ys ∧ ys.length = xs.length
  | .map kvs => ∃ es, y.getMapL D [] = .ok es ∧ ∀ k, k ∈ smKeys es ↔ ∃ x, (k, x) ∈ kvs
  | .struct fs => ∃ es, y.getMapL D [] = .ok es ∧ ∀ k, k ∈ smKeys es ↔ ∃ i x, (i, x) ∈ fs ∧ i.ignore = false ∧ i.name = k
  | _ => False

/-! ### Node ids -/

mutual
/-- Every dictionary with a node id has a reference inside. -/
def J.IdHasRef : J → Prop
  | .arr xs => J.IdHasRefs xs
  | .dict id kvs => (0 < id → J.ptrIdsf kvs ≠ []) ∧ J.IdHasReff kvs
  | _ => True
def J.IdHasRefs : List J → Prop
  | [] => True
  | x :: xs => x.IdHasRef ∧ J.IdHasRefs xs
def J.IdHasReff : List (Bytes × J) → Prop
  | [] => True
  | (_, x) :: xs => x.IdHasRef ∧ J.IdHasReff xs
end

end Jsonutils
