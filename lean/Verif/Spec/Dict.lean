import Verif.Model.Dict
import Verif.Spec.Doc

/-!
# Specification vocabulary for dictionaries

An abstract dictionary is a function from keys to optional values; nothing below mentions sorted lists except through
`smGet`, the lookup.
-/

namespace Jsonutils

/-- The abstract dictionary of a concrete one. -/
abbrev AMap := Bytes → Option J

/-- Mutating calls on a dictionary. -/
inductive DOp where
  | set (k : Bytes) (v : J)
  | remove (k : Bytes)
  | removeIgnoreCase (k : Bytes)
  | update (o : J)
  | updateDefault (o : J)

/-- The entries of an argument, as an abstract dictionary; a non-dictionary has none. -/
def J.asMap : J → AMap
  | .dict _ kvs => smGet kvs
  | _ => fun _ => none

/-- Effect of one call on the abstract dictionary. -/
def DOp.spec (fold : Bytes → Bytes) (m : AMap) : DOp → AMap
  | .set k v => fun k' => if k' = k then some v else m k'
  | .remove k => fun k' => if k' = k then none else m k'
  | .removeIgnoreCase k => fun k' => if fold k' = fold k then none else m k'
  | .update o => fun k' => (o.asMap k').or (m k')
  | .updateDefault o => fun k' => (m k').or (o.asMap k')

/-- What the call reports: the two removals report whether an entry was removed. -/
def DOp.reports (fold : Bytes → Bytes) (m : AMap) : DOp → Option Prop
  | .remove k => some ((m k).isSome)
  | .removeIgnoreCase k => some (∃ k', fold k' = fold k ∧ (m k').isSome)
  | _ => none

/-- The call on the model: new entries and the reported flag; `none` = the call does not return. -/
def DOp.run (fold : Bytes → Bytes) (kvs : SMap J) : DOp → Option (SMap J × Option Bool)
  | .set k v => some (smAdd kvs k v, none)
  | .remove k => let r := dictRemove kvs k; some (r.1, some r.2)
  | .removeIgnoreCase k => (dictRemoveFold fold (kvs.length + 1) kvs k false).map fun r => (r.1, some r.2)
  | .update o => some (dictUpdate kvs o, none)
  | .updateDefault o => some (dictUpdateDefault kvs o, none)

/-- The argument of an update is a document the API can build. -/
def DOp.ArgOk : DOp → Prop
  | .update o => o.WF
  | .updateDefault o => o.WF
  | _ => True

/-- A history: final entries and all reported flags. -/
def runOps (fold : Bytes → Bytes) : SMap J → List DOp → Option (SMap J × List (Option Bool))
  | kvs, [] => some (kvs, [])
  | kvs, op :: ops => match op.run fold kvs with
    | none => none
    | some (kvs', r) => match runOps fold kvs' ops with
      | none => none
      | some (kvs'', rs) => some (kvs'', r :: rs)

/-- The history on the abstract dictionary. -/
def specOps (fold : Bytes → Bytes) (m : AMap) (ops : List DOp) : AMap := ops.foldl (DOp.spec fold) m

/-- A reported flag agrees with the proposition it should report. -/
def FlagOk : Option Bool → Option Prop → Prop
  | none, none => True
  | some b, some p => (b = true ↔ p)
  | _, _ => False

/-- All flags of a history agree with the abstract dictionary at the time of the call. -/
def FlagsOk (fold : Bytes → Bytes) : AMap → List DOp → List (Option Bool) → Prop
  | _, [], [] => True
  | m, op :: ops, r :: rs => FlagOk r (op.reports fold m) ∧ FlagsOk fold (op.spec fold m) ops rs
  | _, _, _ => False

/-- `Walks v path w`: descending from `v` through dictionary entries along `path` leads to `w`. -/
inductive Walks : J → List Bytes → J → Prop where
  | here (v : J) : Walks v [] v
  | step {id : Int} {kvs : SMap J} {k : Bytes} {v w : J} {ks : List Bytes} :
      smGet kvs k = some v → Walks v ks w → Walks (.dict id kvs) (k :: ks) w

/-- Being a dictionary. -/
def J.IsDict : J → Prop
  | .dict _ _ => True
  | _ => False

/-- The kinds as booleans. -/
def J.IsDict' : J → Bool
  | .dict _ _ => true
  | _ => false
def J.IsArr' : J → Bool
  | .arr _ => true
  | _ => false

/-- Structural equality of documents: arrays elementwise, dictionaries keywise, numbers by Go's `==`. -/
inductive Alike : J → J → Prop where
  | null : Alike .null .null
  | bool (b : Bool) : Alike (.bool b) (.bool b)
  | int (n : Int) : Alike (.int n) (.int n)
  | float {x y : GoFloat} (b c : Nat) : x.feq y = true → Alike (.float x b) (.float y c)
  | str (s : Bytes) : Alike (.str s) (.str s)
  | arr {xs ys : List J} : xs.length = ys.length →
      (∀ (i : Nat) (x y : J), xs[i]? = some x → ys[i]? = some y → Alike x y) → Alike (.arr xs) (.arr ys)
  | dict {i j : Int} {a b : SMap J} : (∀ k, (smGet a k).isSome = (smGet b k).isSome) →
      (∀ (k : Bytes) (x y : J), smGet a k = some x → smGet b k = some y → Alike x y) → Alike (.dict i a) (.dict j b)

/-- No NaN anywhere. -/
def J.NoNaN (v : J) : Prop := v.FloatsSat fun x _ => x ≠ .nan

mutual
/-- The document without its node ids. -/
def J.dropIds : J → J
  | .arr xs => .arr (J.dropIdss xs)
  | .dict _ kvs => .dict 0 (J.dropIdsf kvs)
  | v => v
def J.dropIdss : List J → List J
  | [] => []
  | x :: xs => x.dropIds :: J.dropIdss xs
def J.dropIdsf : List (Bytes × J) → List (Bytes × J)
  | [] => []
  | (k, x) :: xs => (k, x.dropIds) :: J.dropIdsf xs
end

mutual
/-- No node id anywhere. -/
def J.NoIds : J → Prop
  | .arr xs => J.NoIdss xs
  | .dict id kvs => id = 0 ∧ J.NoIdsf kvs
  | _ => True
def J.NoIdss : List J → Prop
  | [] => True
  | x :: xs => J.NoIds x ∧ J.NoIdss xs
def J.NoIdsf : List (Bytes × J) → Prop
  | [] => True
  | (_, x) :: xs => J.NoIds x ∧ J.NoIdsf xs
end

/-- One step into a document. -/
inductive Sel where
  | key (k : Bytes)
  | idx (i : Nat)

/-- Subdocument at a path of keys and indices. -/
def J.at : J → List Sel → Option J
  | v, [] => some v
  | .dict _ kvs, .key k :: p => (smGet kvs k).bind (J.at · p)
  | .arr xs, .idx i :: p => xs[i]?.bind (J.at · p)
  | _, _ => none

/-- Part of a plain Go value at a path of map keys and slice indices. -/
def Iface.at : Iface → List Sel → Option Iface
  | v, [] => some v
  | .map kvs, .key k :: p => (smGet kvs k).bind (Iface.at · p)
  | .slice xs, .idx i :: p => xs[i]?.bind (Iface.at · p)
  | _, _ => none

/-- The plain Go value of a scalar. -/
def J.scalarIface : J → Option Iface
  | .null => some .nil
  | .bool b => some (.bool b)
  | .int n => some (.int n)
  | .float x _ => some (.float x)
  | .str s => some (.str s)
  | _ => none

/-- An ASCII rendering of the two non-ASCII characters that Unicode folds to ASCII letters: U+017F (ſ) and U+212A (K). -/
def asciiFold : Bytes → Bytes
  | 0xC5 :: 0xBF :: r => 115 :: asciiFold r
  | 0xE2 :: 0x84 :: 0xAA :: r => 107 :: asciiFold r
  | c :: r => c :: asciiFold r
  | [] => []

/-- Walking along a path ignoring case: at every step the first entry whose key folds to that of the path. -/
inductive WalksFold (fold : Bytes → Bytes) : J → List Bytes → J → Prop where
  | here (v : J) : WalksFold fold v [] v
  | step {id : Int} {before after : List (Bytes × J)} {k' k : Bytes} {c w : J} {ks : List Bytes} : fold k' = fold k →
      (∀ e ∈ before, fold e.1 ≠ fold k) → WalksFold fold c ks w → WalksFold fold (.dict id (before ++ (k', c) :: after)) (k :: ks) w

end Jsonutils
