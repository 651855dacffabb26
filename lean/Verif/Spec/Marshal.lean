import Verif.Model.Marshal
import Verif.Spec.Deprecated
import Verif.Spec.Doc

/-!
# Vocabulary for `Marshal`
-/

namespace Jsonutils

/-- A Go value with its pointers followed: a finite tree. -/
inductive TV where
  | leaf (l : Leaf)
  | seq (xs : List TV)
  | map (kvs : List (Bytes × TV))
  | struct (fs : List (FInfo × TV))
  | iface (x : TV)
  | ptr (x : TV)

mutual
/-- In memory `h` the value `g` is the finite tree `t`: following pointers never runs into a cycle.  (Sharing is
allowed: the same address may be met several times on different branches.) -/
inductive Unf (h : List GV) : GV → TV → Prop where
  | leaf (l) : Unf h (.leaf l) (.leaf l)
  | jsonPtr (j) : Unf h (.jsonPtr j) (.leaf (.jsonIface j))
  | seq {xs ts} : Unfs h xs ts → Unf h (.seq xs) (.seq ts)
  | map {xs ts} : Unfm h xs ts → Unf h (.map xs) (.map ts)
  | struct {xs ts} : Unff h xs ts → Unf h (.struct xs) (.struct ts)
  | iface {x t} : Unf h x t → Unf h (.iface x) (.iface t)
  | ptr {a g t} : h[a]? = some g → Unf h g t → Unf h (.ptr a) (.ptr t)
  | shared {a g t} : h[a]? = some g → Unf h g t → Unf h (.shared a) t
inductive Unfs (h : List GV) : List GV → List TV → Prop where
  | nil : Unfs h [] []
  | cons {x xs t ts} : Unf h x t → Unfs h xs ts → Unfs h (x :: xs) (t :: ts)
inductive Unfm (h : List GV) : List (Bytes × GV) → List (Bytes × TV) → Prop where
  | nil : Unfm h [] []
  | cons {k x xs t ts} : Unf h x t → Unfm h xs ts → Unfm h ((k, x) :: xs) ((k, t) :: ts)
inductive Unff (h : List GV) : List (FInfo × GV) → List (FInfo × TV) → Prop where
  | nil : Unff h [] []
  | cons {i x xs t ts} : Unf h x t → Unff h xs ts → Unff h ((i, x) :: xs) ((i, t) :: ts)
end

/-- A document held by value that counts as empty: `{}`, `[]`, `false`, `0`, `0.0`, `-0.0` and `""`. -/
inductive J.Hollow : J → Prop where
  | dict (id : Int) : Hollow (.dict id [])
  | arr : Hollow (.arr [])
  | bool : Hollow (.bool false)
  | int : Hollow (.int 0)
  | float (neg : Bool) (e bit : Nat) : Hollow (.float (.fin neg 0 e) bit)
  | str : Hollow (.str [])

/-- The value is that of a field whose tag has the option. -/
def Asks (info : Option FInfo) (option : FInfo → Bool) : Bool :=
  match info with
  | some i => option i
  | none => false

/-- Empty, for a field with options `info`: nil and the undefined tristate always; false, zero and the empty text or
container only if the tag says so. -/
def Leaf.Empty (info : Option FInfo) : Leaf → Prop
  | .nil => True
  | .tri none => True
  | .bool b => b = false ∧ Asks info (·.omitFalse)
  | .int n => n = 0 ∧ Asks info (·.omitZero)
  | .float32 x => x.isZero ∧ Asks info (·.omitZero)
  | .float64 x => x.isZero ∧ Asks info (·.omitZero)
  | .str s => s = [] ∧ Asks info (·.omitEmpty)
  | .time t => t = none ∧ Asks info (·.omitEmpty)
  | .jsonVal j => j.Hollow ∧ Asks info (·.omitEmpty)
  | _ => False

mutual
/-- Empty in the documented sense; a pointer or interface is as empty as what it points to (with the same options). -/
def TV.Empty : TV → Option FInfo → Prop
  | .leaf l, info => l.Empty info
  | .seq xs, info => xs = [] ∧ Asks info (·.omitEmpty)
  | .map kvs, info => kvs = [] ∧ Asks info (·.omitEmpty)
  | .struct fs, info => TV.Emptyf fs ∧ Asks info (·.omitEmpty)
  | .iface x, info => x.Empty info
  | .ptr x, info => x.Empty info
/-- Every field that is marshalled at all is empty. -/
def TV.Emptyf : List (FInfo × TV) → Prop
  | [] => True
  | (i, x) :: fs => (i.ignore = true ∨ i.deprecatedBy ≠ none ∨ x.Empty (some i)) ∧ TV.Emptyf fs
end

/-- Following the pointers of `g` never runs into a cycle. -/
def Acyclic (h : List GV) (g : GV) : Prop := ∃ t, Unf h g t

/-- The value is empty, for a field with options `info` (none: not a field). -/
def GV.IsEmpty (h : List GV) (g : GV) (info : Option FInfo) : Prop := ∃ t, Unf h g t ∧ t.Empty info

/-- Field `i` is written from its own value. -/
def FInfo.Proper (i : FInfo) : Prop := i.ignore = false ∧ i.deprecatedBy = none

/-- The keys of the fields that are not ignored are distinct. -/
def DistinctNames {α : Type} (fs : List (FInfo × α)) : Prop := ((fs.filter fun f => !f.1.ignore).map (·.1.name)).Nodup

/-- The replacement of each deprecated key of a struct. -/
def depMap {α : Type} : List (FInfo × α) → SMap Bytes
  | [] => []
  | (i, _) :: fs => match i.ignore, i.deprecatedBy with
    | false, some k => match smGet (depMap fs) i.name with
      | some _ => depMap fs
      | none => smAdd (depMap fs) i.name k
    | _, _ => depMap fs

/-- The deprecated-by chains of a struct end, or come back to where they started (see C41: otherwise `Marshal` loops
forever). -/
def DepOk {α : Type} (fs : List (FInfo × α)) : Prop :=
  ∀ k k', smGet (depMap fs) k = some k' → (∃ e, DepEnd (depMap fs) k' e) ∨ DepReach (depMap fs) k k'

mutual
/-- All structs inside a value (not looking through pointers) have good chains. -/
def GV.DepsOk : GV → Prop
  | .seq xs => GV.DepsOks xs
  | .map kvs => GV.DepsOkm kvs
  | .struct fs => DepOk fs ∧ GV.DepsOkf fs
  | .iface x => x.DepsOk
  | _ => True
def GV.DepsOks : List GV → Prop
  | [] => True
  | x :: xs => x.DepsOk ∧ GV.DepsOks xs
def GV.DepsOkm : List (Bytes × GV) → Prop
  | [] => True
  | (_, x) :: xs => x.DepsOk ∧ GV.DepsOkm xs
def GV.DepsOkf : List (FInfo × GV) → Prop
  | [] => True
  | (_, x) :: xs => x.DepsOk ∧ GV.DepsOkf xs
end

/-! ### Pointer graphs -/

mutual
/-- No slice or map is reached through a shared backing store, and no pointer dangles. -/
def GV.Finite (h : List GV) : GV → Prop
  | .seq xs => GV.Finites h xs
  | .map kvs => GV.Finitem h kvs
  | .struct fs => GV.Finitef h fs
  | .iface x => x.Finite h
  | .ptr a => a < h.length
  | .shared _ => False
  | _ => True
def GV.Finites (h : List GV) : List GV → Prop
  | [] => True
  | x :: xs => x.Finite h ∧ GV.Finites h xs
def GV.Finitem (h : List GV) : List (Bytes × GV) → Prop
  | [] => True
  | (_, x) :: xs => x.Finite h ∧ GV.Finitem h xs
def GV.Finitef (h : List GV) : List (FInfo × GV) → Prop
  | [] => True
  | (_, x) :: xs => x.Finite h ∧ GV.Finitef h xs
end

/-- A finite pointer graph, cyclic or not: memory `h` and a value in it. -/
def GraphOk (h : List GV) (g : GV) : Prop := g.Finite h ∧ g.DepsOk ∧ ∀ x ∈ h, x.Finite h ∧ x.DepsOk

/-- A document of the user inside a Go value that brings no node ids and references of its own. -/
def Leaf.NoIds : Leaf → Prop
  | .jsonVal j => j.nodeIds = [] ∧ j.ptrIds = []
  | .jsonIface j => j.nodeIds = [] ∧ j.ptrIds = []
  | .std j => j.nodeIds = [] ∧ j.ptrIds = []
  | _ => True

/-- What a pointer may point to in a clean graph: a struct, a map or a scalar. -/
def GV.DictLike : GV → Prop
  | .leaf _ => True
  | .map _ => True
  | .struct _ => True
  | _ => False

mutual
/-- Values whose references `Marshal` can resolve: pointers point to structs, maps or scalars, no field has the options
`,string` or `deprecated-by`, keys are distinct. -/
def GV.Clean (h : List GV) : GV → Prop
  | .leaf l => l.NoIds
  | .jsonPtr j => j.nodeIds = [] ∧ j.ptrIds = []
  | .seq xs => GV.Cleans h xs
  | .map kvs => (kvs.map (·.1)).Nodup ∧ GV.Cleanm h kvs
  | .struct fs => DistinctNames fs ∧ GV.Cleanf h fs
  | .iface x => x.Clean h
  | .ptr a => ∀ g, h[a]? = some g → g.DictLike
  | .shared _ => True
def GV.Cleans (h : List GV) : List GV → Prop
  | [] => True
  | x :: xs => x.Clean h ∧ GV.Cleans h xs
def GV.Cleanm (h : List GV) : List (Bytes × GV) → Prop
  | [] => True
  | (_, x) :: xs => x.Clean h ∧ GV.Cleanm h xs
def GV.Cleanf (h : List GV) : List (FInfo × GV) → Prop
  | [] => True
  | (i, x) :: xs => (i.ignore = true ∨ i.forceString = false ∧ i.deprecatedBy = none ∧ x.Clean h) ∧ GV.Cleanf h xs
end

/-- The value and everything in memory is clean. -/
def GraphClean (h : List GV) (g : GV) : Prop := g.Clean h ∧ ∀ x ∈ h, x.Clean h

/-! ### Values that exist in Go -/

/-- The integers fit int64, floats are floats, and documents of the user are well formed. -/
def Leaf.Ok : Leaf → Prop
  | .int n => InI64 n
  | .float32 x => x.Canonical
  | .float64 x => x.Canonical
  | .jsonVal j => j.WF ∧ j.Refable
  | .jsonIface j => j.WF ∧ j.Refable
  | .std j => j.WF ∧ j.Refable
  | _ => True

mutual
/-- Leaves as above; the reserved key is not used. -/
def GV.Ok : GV → Prop
  | .leaf l => l.Ok
  | .jsonPtr j => j.WF ∧ j.Refable
  | .seq xs => GV.Oks xs
  | .map kvs => GV.Okm kvs
  | .struct fs => GV.Okf fs
  | .iface x => x.Ok
  | _ => True
def GV.Oks : List GV → Prop
  | [] => True
  | x :: xs => x.Ok ∧ GV.Oks xs
def GV.Okm : List (Bytes × GV) → Prop
  | [] => True
  | (k, x) :: xs => k ≠ jsonPointerKey ∧ x.Ok ∧ GV.Okm xs
def GV.Okf : List (FInfo × GV) → Prop
  | [] => True
  | (i, x) :: xs => i.name ≠ jsonPointerKey ∧ x.Ok ∧ GV.Okf xs
end

def ValuesOk (h : List GV) (g : GV) : Prop := g.Ok ∧ ∀ x ∈ h, x.Ok

mutual
/-- Documents of the user inside the value bring no node ids and references of their own. -/
def GV.NoIds : GV → Prop
  | .leaf l => l.NoIds
  | .jsonPtr j => j.nodeIds = [] ∧ j.ptrIds = []
  | .seq xs => GV.NoIdss xs
  | .map kvs => GV.NoIdsm kvs
  | .struct fs => GV.NoIdsf fs
  | .iface x => x.NoIds
  | _ => True
def GV.NoIdss : List GV → Prop
  | [] => True
  | x :: xs => x.NoIds ∧ GV.NoIdss xs
def GV.NoIdsm : List (Bytes × GV) → Prop
  | [] => True
  | (_, x) :: xs => x.NoIds ∧ GV.NoIdsm xs
def GV.NoIdsf : List (FInfo × GV) → Prop
  | [] => True
  | (_, x) :: xs => x.NoIds ∧ GV.NoIdsf xs
end

end Jsonutils
