import Verif.Spec.Graph

/-!
# Typed pointer graphs, and what `Marshal` sees of memory
-/

namespace Jsonutils

mutual
/-- A tree without pointers, as a Go value. -/
def TV.toGV : TV → GV
  | .leaf l => .leaf l
  | .seq xs => .seq (TV.toGVs xs)
  | .map kvs => .map (TV.toGVm kvs)
  | .struct fs => .struct (TV.toGVf fs)
  | .iface x => .iface x.toGV
  | .ptr x => .iface x.toGV            -- (does not occur in zero values)
def TV.toGVs : List TV → List GV
  | [] => []
  | x :: xs => x.toGV :: TV.toGVs xs
def TV.toGVm : List (Bytes × TV) → List (Bytes × GV)
  | [] => []
  | (k, x) :: xs => (k, x.toGV) :: TV.toGVm xs
def TV.toGVf : List (FInfo × TV) → List (FInfo × GV)
  | [] => []
  | (i, x) :: xs => (i, x.toGV) :: TV.toGVf xs
end

/-- The zero value of a type, as `Marshal` sees it. -/
def UEnv.gzero (P : UEnv) (t : Ty) : GV := ((P.zero t).toTV P.defs t).toGV

/-- Nil, booleans, numbers and texts. -/
def Leaf.Simple : Leaf → Prop
  | .nil => True
  | .bool _ => True
  | .int _ => True
  | .float32 _ => True
  | .float64 _ => True
  | .str _ => True
  | _ => False

mutual
/-- `g` is a value of type `t`; `Θ a` is the type of the variable at address `a`. (Scalars, nil, slices, arrays, maps with string
keys, structs and pointers.) -/
def GV.HasTy (P : UEnv) (Θ : Nat → Ty) : GV → Ty → Prop
  | .leaf l, t => l.Simple ∧ ∃ u : UV, u.HasTy P.defs t ∧ u.toTV P.defs t = .leaf l
  | .seq xs, t => ∃ e, (t = .slice e ∨ t = .array xs.length e) ∧ GV.HasTys P Θ xs e
  | .map kvs, t => SMap.Sorted kvs ∧ ∃ e, t = .map e ∧ GV.HasTym P Θ kvs e
  | .struct fs, t => ∃ n ds, t = .struct n ∧ P.defs[n]? = some ds ∧ GV.HasTyf P Θ fs ds
  | .ptr a, t => t = .ptr (Θ a)
  | _, _ => False
def GV.HasTys (P : UEnv) (Θ : Nat → Ty) : List GV → Ty → Prop
  | [], _ => True
  | x :: xs, t => x.HasTy P Θ t ∧ GV.HasTys P Θ xs t
def GV.HasTym (P : UEnv) (Θ : Nat → Ty) : List (Bytes × GV) → Ty → Prop
  | [], _ => True
  | (_, x) :: xs, t => x.HasTy P Θ t ∧ GV.HasTym P Θ xs t
def GV.HasTyf (P : UEnv) (Θ : Nat → Ty) : List (FInfo × GV) → List (FInfo × Ty) → Prop
  | [], ds => ds = []
  | (i, x) :: xs, ds => ∃ t r, ds = (i, t) :: r ∧ x.HasTy P Θ t ∧ GV.HasTyf P Θ xs r
end

/-- What a pointer may point to: a struct, a map that is not nil, or a scalar. -/
def GV.Target : GV → Prop
  | .leaf l => l ≠ .nil
  | .map _ => True
  | .struct _ => True
  | _ => False

/-- Negative zero is written as 0, which is an integer. -/
def Leaf.Textual : Leaf → Prop
  | .float64 x => NotNegZero x
  | .float32 x => NotNegZero x
  | _ => True

mutual
/-- Nothing that a round trip loses: pointers point to structs, maps or scalars; ignored fields are zero; with `Marshal` (`oe`), fields it drops are zero,
and slices and maps have no elements that it drops; through the text (`text`) no negative zeros. -/
def GV.Tidy (P : UEnv) (h : List GV) (oe text : Bool) : GV → Ty → Prop
  | .leaf l, _ => text = true → l.Textual
  | .seq xs, t => GV.Tidys P h oe text xs t.elem
  | .map kvs, t => GV.Tidym P h oe text kvs t.elem
  | .struct fs, t => GV.Tidyf P h oe text fs (t.fields P.defs)
  | .ptr a, _ => ∃ g, h[a]? = some g ∧ g.Target
  | _, _ => False
def GV.Tidys (P : UEnv) (h : List GV) (oe text : Bool) : List GV → Ty → Prop
  | [], _ => True
  | x :: xs, t => (oe = true → ¬ x.IsEmpty h none) ∧ GV.Tidy P h oe text x t ∧ GV.Tidys P h oe text xs t
def GV.Tidym (P : UEnv) (h : List GV) (oe text : Bool) : List (Bytes × GV) → Ty → Prop
  | [], _ => True
  | (_, x) :: xs, t => (oe = true → ¬ x.IsEmpty h none) ∧ GV.Tidy P h oe text x t ∧ GV.Tidym P h oe text xs t
def GV.Tidyf (P : UEnv) (h : List GV) (oe text : Bool) : List (FInfo × GV) → List (FInfo × Ty) → Prop
  | (i, x) :: xs, (_, t) :: ds =>
    (i.ignore = true ∨ (oe = true ∧ x.IsEmpty h (some i)) → x = P.gzero t) ∧ GV.Tidy P h oe text x t ∧ GV.Tidyf P h oe text xs ds
  | _, _ => True
end

/-- A pointer graph of the types `Θ` that survives a round trip. -/
def GraphTidy (P : UEnv) (h : List GV) (Θ : Nat → Ty) (oe text : Bool) : Prop :=
  ∀ a g, h[a]? = some g → g.HasTy P Θ (Θ a) ∧ (Θ a).RoundTrips text ∧ g.Tidy P h oe text (Θ a)

/-- A struct or map. -/
def GV.IsNode : GV → Prop
  | .map _ => True
  | .struct _ => True
  | _ => False

/-- A struct, map, slice or array. -/
def GV.Root : GV → Prop
  | .map _ => True
  | .struct _ => True
  | .seq _ => True
  | _ => False

/-- Fields are declared in the order of their keys. -/
def UEnv.FieldsInOrder (P : UEnv) : Prop :=
  ∀ (n : Nat) (ds : List (FInfo × Ty)), P.defs[n]? = some ds → ((ds.filter fun f => !f.1.ignore).map (·.1.name)).Pairwise (fun a b => blt a b = true)

/-! ### Memory as a graph -/

mutual
/-- Contents `c` of type `t`, in memory `M`, are what `Marshal` sees as `g`, if pointers to the locations `R a` are seen as pointers to
the address `a`. -/
def GV.Shown (P : UEnv) (Θ : Nat → Ty) (R : Nat → Loc → Prop) (M : List HV) : GV → Ty → HV → Prop
  | .leaf l, t, c => ∃ u : UV, c = .val u ∧ u.HasTy P.defs t ∧ u.toTV P.defs t = .leaf l
  | .seq xs, t, c =>
    (∃ e b ys spare, t = .slice e ∧ c = .seq b xs.length ∧ M[b]? = some (.arr (ys ++ spare)) ∧ GV.Showns P Θ R M xs e ys) ∨
    (∃ e ys, t = .array xs.length e ∧ c = .arr ys ∧ GV.Showns P Θ R M xs e ys)
  | .map kvs, t, c => ∃ e b m, t = .map e ∧ c = .map b ∧ M[b]? = some (.mapObj m) ∧ GV.Shownm P Θ R M kvs e m
  | .struct fs, t, c => ∃ n ds vs, t = .struct n ∧ P.defs[n]? = some ds ∧ c = .struct vs ∧ GV.Shownf P Θ R M fs ds vs
  | .ptr a, t, c => ∃ l, c = .ptr l ∧ t = .ptr (Θ a) ∧ R a l
  | _, _, _ => False
def GV.Showns (P : UEnv) (Θ : Nat → Ty) (R : Nat → Loc → Prop) (M : List HV) : List GV → Ty → List HV → Prop
  | [], _, ys => ys = []
  | x :: xs, t, ys => ∃ c r, ys = c :: r ∧ x.Shown P Θ R M t c ∧ GV.Showns P Θ R M xs t r
def GV.Shownm (P : UEnv) (Θ : Nat → Ty) (R : Nat → Loc → Prop) (M : List HV) : List (Bytes × GV) → Ty → List (Bytes × HV) → Prop
  | [], _, ys => ys = []
  | (k, x) :: xs, t, ys => ∃ c r, ys = (k, c) :: r ∧ x.Shown P Θ R M t c ∧ GV.Shownm P Θ R M xs t r
def GV.Shownf (P : UEnv) (Θ : Nat → Ty) (R : Nat → Loc → Prop) (M : List HV) : List (FInfo × GV) → List (FInfo × Ty) → List HV → Prop
  | [], ds, ys => ds = [] ∧ ys = []
  | (i, x) :: xs, ds, ys => ∃ t dr c r, ds = (i, t) :: dr ∧ ys = c :: r ∧ x.Shown P Θ R M t c ∧ GV.Shownf P Θ R M xs dr r
end

/-- Memory `M` looks like the graph `h`: whatever is at a location that stands for address `a` is what is at `a`, pointers in it
included.  (A bisimulation: no sequence of field selections, element and entry accesses and dereferences tells the one from the other,
except by comparing pointers.) -/
def Looks (P : UEnv) (h : List GV) (Θ : Nat → Ty) (M : List HV) (R : Nat → Loc → Prop) : Prop :=
  ∀ a l, R a l → ∃ g c, h[a]? = some g ∧ memGet M l = some c ∧ g.Shown P Θ R M (Θ a) c

end Jsonutils
