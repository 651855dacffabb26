import Verif.Model.UnmarshalHeap
import Verif.Spec.Graph

/-!
# Values in memory

The models of `Unmarshal` on trees and on memory, related: when contents of memory are a given value.
-/

namespace Jsonutils

mutual
/-- In memory `M`, the contents `c` of a variable are the value `v`; the objects it consists of, besides the one that the variable is
in, are those of the list `F`, in the order in which they are met. -/
def UV.Rep (M : List HV) : UV → HV → List Nat → Prop
  | .ptr x, c, F => ∃ l c' G, c = .ptr l ∧ memGet M l = some c' ∧ F = l.base :: G ∧ UV.Rep M x c' G
  | .seq xs sp, c, F => ∃ b ys zs G H, c = .seq b xs.length ∧ M[b]? = some (.arr (ys ++ zs)) ∧ F = b :: (G ++ H) ∧
    UV.Reps M xs ys G ∧ UV.Reps M sp zs H
  | .map kvs, c, F => ∃ b m G, c = .map b ∧ M[b]? = some (.mapObj m) ∧ F = b :: G ∧ UV.Repm M kvs m G
  | .arr xs, c, F => ∃ ys, c = .arr ys ∧ UV.Reps M xs ys F
  | .struct xs, c, F => ∃ ys, c = .struct ys ∧ UV.Reps M xs ys F
  | .nil, c, F => c = .val .nil ∧ F = []
  | .bool b, c, F => c = .val (.bool b) ∧ F = []
  | .int n, c, F => c = .val (.int n) ∧ F = []
  | .float x, c, F => c = .val (.float x) ∧ F = []
  | .str s, c, F => c = .val (.str s) ∧ F = []
  | .any a, c, F => c = .val (.any a) ∧ F = []
  | .json j, c, F => c = .val (.json j) ∧ F = []
def UV.Reps (M : List HV) : List UV → List HV → List Nat → Prop
  | [], ys, F => ys = [] ∧ F = []
  | x :: xs, ys, F => ∃ c r G H, ys = c :: r ∧ F = G ++ H ∧ UV.Rep M x c G ∧ UV.Reps M xs r H
def UV.Repm (M : List HV) : List (Bytes × UV) → List (Bytes × HV) → List Nat → Prop
  | [], ys, F => ys = [] ∧ F = []
  | (k, x) :: xs, ys, F => ∃ c r G H, ys = (k, c) :: r ∧ F = G ++ H ∧ UV.Rep M x c G ∧ UV.Repm M xs r H
end

/-- The variable at `l` holds the value `v`, which consists of the objects `F`; no object is met twice. -/
def Owns (M : List HV) (l : Loc) (v : UV) (F : List Nat) : Prop :=
  ∃ c, memGet M l = some c ∧ v.Rep M c F ∧ (l.base :: F).Nodup

/-- Memory `M'` differs from memory `M` in nothing but the variable at `l`, the objects `F`, and new objects. -/
def OnlyWrites (M M' : List HV) (l : Loc) (F : List Nat) : Prop :=
  (∀ b, b < M.length → b ≠ l.base → b ∉ F → M'[b]? = M[b]?) ∧ ∃ c, M'[l.base]? = (memSet M l c)[l.base]?

/-- No reference in the document refers to a dictionary in it. -/
def NoResolved (evs : List NodeEv) : Prop := ∀ id, .use id ∈ evs → .defn id ∉ evs

/-- The part of the document that `j.Unmarshal(&x, keys...)` is about. -/
def Selects (j : J) (keys : List Bytes) (d : J) : Prop := (keys = [] ∧ d = j) ∨ (keys ≠ [] ∧ j.get keys = .ok d)

/-! ### Reachability -/

mutual
/-- The objects that contents refer to directly. -/
def HV.refs : HV → List Nat
  | .val _ => []
  | .ptr l => [l.base]
  | .seq b _ => [b]
  | .map b => [b]
  | .arr xs => HV.refss xs
  | .struct xs => HV.refss xs
  | .mapObj kvs => HV.refsm kvs
def HV.refss : List HV → List Nat
  | [] => []
  | x :: xs => x.refs ++ HV.refss xs
def HV.refsm : List (Bytes × HV) → List Nat
  | [] => []
  | (_, x) :: xs => x.refs ++ HV.refsm xs
end

/-- From object `a`, following pointers, slices and maps, one comes to object `b`. -/
inductive Reaches (M : List HV) (a : Nat) : Nat → Prop where
  | here : Reaches M a a
  | step {b o b'} : Reaches M a b → M[b]? = some o → b' ∈ o.refs → Reaches M a b'

end Jsonutils
