import Verif.Spec.Text
import Verif.Model.Print

/-!
# Specification vocabulary for dotted keys and query strings

Nothing here models code (the only model notions used are documents, the texts of scalars, and int64).
-/

namespace Jsonutils

/-- `ps` are the pieces of the dotted key `key`. -/
def Pieces (key : Bytes) (ps : List Bytes) : Prop :=
  ps ≠ [] ∧ (∀ p ∈ ps, (46 : UInt8) ∉ p) ∧ List.intercalate [46] ps = key

/-- The piece is a number text (`[+-]?[0-9]+` in the range of int64) with value `n`. -/
def IsNumber (p : Bytes) (n : Int) : Prop := DecimalText p n ∧ InI64 n

/-- Order of pieces: numbers by value, then texts bytewise. -/
def PieceBefore (p q : Bytes) : Prop :=
  (∃ m n, IsNumber p m ∧ IsNumber q n ∧ m < n) ∨
  ((∃ m, IsNumber p m) ∧ ¬ ∃ n, IsNumber q n) ∨
  ((¬ ∃ m, IsNumber p m) ∧ (¬ ∃ n, IsNumber q n) ∧ blt p q = true)

/-- Pieces that tie: the same number, or the same text. -/
def PieceTied (p q : Bytes) : Prop := p = q ∨ ∃ n, IsNumber p n ∧ IsNumber q n

/-- Order of keys, given by their pieces: fewer pieces first, then the first pieces that do not tie decide. -/
def KeyBefore (ps qs : List Bytes) : Prop :=
  ps.length < qs.length ∨ (ps.length = qs.length ∧ ∃ (i : Nat) (p q : Bytes), ps[i]? = some p ∧ qs[i]? = some q ∧ PieceBefore p q ∧
    ∀ (j : Nat) (p' q' : Bytes), j < i → ps[j]? = some p' → qs[j]? = some q' → PieceTied p' q')

/-- Text of a scalar in a query string. -/
def J.leafText : J → Bytes
  | .null => []
  | .str s => s
  | .bool true => b!"true"
  | .bool false => b!"false"
  | .int n => intDec n
  | .float x bit => (J.float x bit).toBytes
  | _ => []

mutual
/-- The scalars of a document with the pieces of the key leading to them. -/
def J.leaves : J → List (List Bytes × Bytes)
  | .arr xs => J.leavess xs 0
  | .dict _ kvs => J.leavesf kvs
  | v => [([], v.leafText)]
def J.leavess : List J → Nat → List (List Bytes × Bytes)
  | [], _ => []
  | x :: xs, i => x.leaves.map (fun l => (intDec i :: l.1, l.2)) ++ J.leavess xs (i + 1)
def J.leavesf : List (Bytes × J) → List (List Bytes × Bytes)
  | [] => []
  | (k, x) :: kvs => x.leaves.map (fun l => (k :: l.1, l.2)) ++ J.leavesf kvs
end

mutual
/-- The document with every scalar replaced by its text (and without node ids). -/
def J.textual : J → J
  | .arr xs => .arr (J.textuals xs)
  | .dict _ kvs => .dict 0 (J.textualf kvs)
  | v => .str v.leafText
def J.textuals : List J → List J
  | [] => []
  | x :: xs => x.textual :: J.textuals xs
def J.textualf : List (Bytes × J) → List (Bytes × J)
  | [] => []
  | (k, x) :: kvs => (k, x.textual) :: J.textualf kvs
end

/-- A dictionary key that survives as a piece of a dotted key: no dot, and if it is a number text it is canonical. -/
def QueryKey (k : Bytes) : Prop := (46 : UInt8) ∉ k ∧ ∀ n, IsNumber k n → CanonicalDecimal k

/-- The shallowest scalar of `x` is no deeper than any scalar of `y`. -/
def NoDeeper (x y : J) : Prop := ∃ p ∈ x.leaves, ∀ q ∈ y.leaves, p.1.length ≤ q.1.length

mutual
/-- Documents below the top level that survive as query string: no reference pointers, no empty containers, keys as
above and not "0", and in every array the elements in order of the depth of their shallowest scalar (for instance all
elements scalars, or all elements flat dictionaries). -/
def J.QueryOk : J → Prop
  | .arr xs => xs ≠ [] ∧ InI64 xs.length ∧ xs.Pairwise NoDeeper ∧ J.QueryOks xs
  | .dict _ kvs => kvs ≠ [] ∧ (∀ e ∈ kvs, QueryKey e.1 ∧ e.1 ≠ b!"0") ∧ J.QueryOkf kvs
  | .ptr _ => False
  | _ => True
def J.QueryOks : List J → Prop
  | [] => True
  | x :: xs => x.QueryOk ∧ J.QueryOks xs
def J.QueryOkf : List (Bytes × J) → Prop
  | [] => True
  | (_, x) :: kvs => x.QueryOk ∧ J.QueryOkf kvs
end

mutual
/-- No empty containers, and every key survives as a piece ("0" included). -/
def J.QueryTidy : J → Prop
  | .arr xs => xs ≠ [] ∧ J.QueryTidys xs
  | .dict _ kvs => kvs ≠ [] ∧ (∀ e ∈ kvs, QueryKey e.1) ∧ J.QueryTidyf kvs
  | _ => True
def J.QueryTidys : List J → Prop
  | [] => True
  | x :: xs => x.QueryTidy ∧ J.QueryTidys xs
def J.QueryTidyf : List (Bytes × J) → Prop
  | [] => True
  | (_, x) :: kvs => x.QueryTidy ∧ J.QueryTidyf kvs
end

mutual
/-- No reference pointers; array lengths are Go ints. -/
def J.QuerySized : J → Prop
  | .arr xs => InI64 xs.length ∧ J.QuerySizeds xs
  | .dict _ kvs => J.QuerySizedf kvs
  | .ptr _ => False
  | _ => True
def J.QuerySizeds : List J → Prop
  | [] => True
  | x :: xs => x.QuerySized ∧ J.QuerySizeds xs
def J.QuerySizedf : List (Bytes × J) → Prop
  | [] => True
  | (_, x) :: kvs => x.QuerySized ∧ J.QuerySizedf kvs
end

/-- If there is a member "0", another member has a scalar that comes before all of its scalars: one that is less deep, or as deep and
under a negative number. -/
def ZeroNotFirst (kvs : List (Bytes × J)) : Prop :=
  ∀ x, (b!"0", x) ∈ kvs → ∃ k y, (k, y) ∈ kvs ∧ ∃ p ∈ y.leaves, ∀ q ∈ x.leaves,
    p.1.length < q.1.length ∨ (p.1.length = q.1.length ∧ ∃ n, n < 0 ∧ IsNumber k n)

mutual
/-- In every array the elements are in order of the depth of their shallowest scalar, and in no dictionary the member "0" comes first. -/
def J.QueryOrder : J → Prop
  | .arr xs => xs.Pairwise NoDeeper ∧ J.QueryOrders xs
  | .dict _ kvs => ZeroNotFirst kvs ∧ J.QueryOrderf kvs
  | _ => True
def J.QueryOrders : List J → Prop
  | [] => True
  | x :: xs => x.QueryOrder ∧ J.QueryOrders xs
def J.QueryOrderf : List (Bytes × J) → Prop
  | [] => True
  | (_, x) :: kvs => x.QueryOrder ∧ J.QueryOrderf kvs
end

mutual
/-- Every scalar is a string, and no node ids. -/
def J.StringsOnly : J → Prop
  | .arr xs => J.StringsOnlys xs
  | .dict id kvs => id = 0 ∧ J.StringsOnlyf kvs
  | .str _ => True
  | _ => False
def J.StringsOnlys : List J → Prop
  | [] => True
  | x :: xs => x.StringsOnly ∧ J.StringsOnlys xs
def J.StringsOnlyf : List (Bytes × J) → Prop
  | [] => True
  | (_, x) :: kvs => x.StringsOnly ∧ J.StringsOnlyf kvs
end

end Jsonutils
