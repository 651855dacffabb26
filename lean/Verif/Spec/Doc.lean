import Verif.Model.Print

/-!
# Specification vocabulary for documents

Nothing here models code: these are the notions in which the properties are stated.
-/

namespace Jsonutils

mutual
/-- No reference pointer and no node id anywhere, and the reserved key is not used. -/
def J.Plain : J → Prop
  | .arr xs => J.Plains xs
  | .dict id kvs => id = 0 ∧ J.Plainf kvs
  | .ptr _ => False
  | _ => True
def J.Plains : List J → Prop
  | [] => True
  | x :: xs => J.Plain x ∧ J.Plains xs
def J.Plainf : List (Bytes × J) → Prop
  | [] => True
  | (k, x) :: xs => k ≠ jsonPointerKey ∧ J.Plain x ∧ J.Plainf xs
end

mutual
/-- Every float satisfies `P x bit`. -/
def J.FloatsSat (P : GoFloat → Nat → Prop) : J → Prop
  | .float x bit => P x bit
  | .arr xs => J.FloatsSats P xs
  | .dict _ kvs => J.FloatsSatf P kvs
  | _ => True
def J.FloatsSats (P : GoFloat → Nat → Prop) : List J → Prop
  | [] => True
  | x :: xs => J.FloatsSat P x ∧ J.FloatsSats P xs
def J.FloatsSatf (P : GoFloat → Nat → Prop) : List (Bytes × J) → Prop
  | [] => True
  | (_, x) :: xs => J.FloatsSat P x ∧ J.FloatsSatf P xs
end

/-- No float anywhere. -/
def J.NoFloat (v : J) : Prop := v.FloatsSat fun _ _ => False

/-- Not a negative zero. -/
def NotNegZero : GoFloat → Prop
  | .fin true 0 _ => False
  | _ => True

/-- Floats are 64 bit wide (created by `NewFloat64`, by `Marshal` of a `float64`, or by `Parse`). -/
def J.Wide (v : J) : Prop := v.FloatsSat fun _ bit => bit ≠ 32

/-- The value of a Go `float32`: `± m' · 2^(e' - 149)` with 24 bits. (NaN and the infinities are.) -/
def GoFloat.IsSingle : GoFloat → Prop
  | .fin _ m e => ∃ m' e', Canon f32 m' e' ∧ m * 2 ^ e * 2 ^ f32.bias = m' * 2 ^ e' * 2 ^ f64.bias
  | _ => True

/-- Floats marked as 32 bit wide hold `float32` values (`NewFloat32` takes a `float32`). -/
def J.Narrow (v : J) : Prop := v.FloatsSat fun x bit => bit = 32 → x.IsSingle

mutual
/-- `w` is the document `v`, except that a float may have become the integer with the same numeric value and that the
width mark of floats is irrelevant. -/
def J.Same : J → J → Prop
  | .null, w => w = .null
  | .bool b, w => w = .bool b
  | .int n, w => w = .int n
  | .float x _, w => (∃ bit, w = .float x bit) ∨ (∃ n, w = .int n ∧ (floatOfInt n).feq x = true)
  | .str s, w => w = .str s
  | .arr xs, w => ∃ ys, w = .arr ys ∧ J.Sames xs ys
  | .dict id kvs, w => ∃ kvs', w = .dict id kvs' ∧ J.Samef kvs kvs'
  | .ptr id, w => w = .ptr id
def J.Sames : List J → List J → Prop
  | [], ys => ys = []
  | x :: xs, ys => ∃ y ys', ys = y :: ys' ∧ J.Same x y ∧ J.Sames xs ys'
def J.Samef : List (Bytes × J) → List (Bytes × J) → Prop
  | [], ys => ys = []
  | (k, x) :: xs, ys => ∃ y ys', ys = (k, y) :: ys' ∧ J.Same x y ∧ J.Samef xs ys'
end

/-- The value a number text stands for: an int64 literal is an integer, anything else a double. -/
def numberOf (text : Bytes) : J :=
  match parseInt text with
  | some n => .int n
  | none => match parseFloat text with
    | some y => .float y 0
    | none => .str text

mutual
/-- What a serialised document reads back as: every float becomes the number its text denotes; a node id survives
only if positive. -/
def J.reread : J → J
  | .float x bit => numberOf (formatFloat x (floatBits bit))
  | .arr xs => .arr (J.rereads xs)
  | .dict id kvs => .dict (if 0 < id then id else 0) (J.rereadf kvs)
  | v => v
def J.rereads : List J → List J
  | [] => []
  | x :: xs => x.reread :: J.rereads xs
def J.rereadf : List (Bytes × J) → List (Bytes × J)
  | [] => []
  | (k, x) :: xs => (k, x.reread) :: J.rereadf xs
end

mutual
/-- The document without the node ids of its dictionaries. -/
def J.unlabel : J → J
  | .arr xs => .arr (J.unlabels xs)
  | .dict _ kvs => .dict 0 (J.unlabelf kvs)
  | v => v
def J.unlabels : List J → List J
  | [] => []
  | x :: xs => x.unlabel :: J.unlabels xs
def J.unlabelf : List (Bytes × J) → List (Bytes × J)
  | [] => []
  | (k, x) :: xs => (k, x.unlabel) :: J.unlabelf xs
end

mutual
/-- Positive node ids in the order in which their dictionaries are completed by a reader. -/
def J.nodeIds : J → List Int
  | .arr xs => J.nodeIdss xs
  | .dict id kvs => J.nodeIdsf kvs ++ (if 0 < id then [id] else [])
  | _ => []
def J.nodeIdss : List J → List Int
  | [] => []
  | x :: xs => x.nodeIds ++ J.nodeIdss xs
def J.nodeIdsf : List (Bytes × J) → List Int
  | [] => []
  | (_, x) :: xs => x.nodeIds ++ J.nodeIdsf xs
end

mutual
/-- Ids of reference pointers, left to right. -/
def J.ptrIds : J → List Int
  | .arr xs => J.ptrIdss xs
  | .dict _ kvs => J.ptrIdsf kvs
  | .ptr id => [id]
  | _ => []
def J.ptrIdss : List J → List Int
  | [] => []
  | x :: xs => x.ptrIds ++ J.ptrIdss xs
def J.ptrIdsf : List (Bytes × J) → List Int
  | [] => []
  | (_, x) :: xs => x.ptrIds ++ J.ptrIdsf xs
end

mutual
/-- Documents that may carry node ids and reference pointers (as `Marshal` produces): ids fit int64 and the reserved
key is not used. -/
def J.Refable : J → Prop
  | .arr xs => J.Refables xs
  | .dict id kvs => InI64 id ∧ J.Refablef kvs
  | .ptr id => InI64 id
  | _ => True
def J.Refables : List J → Prop
  | [] => True
  | x :: xs => J.Refable x ∧ J.Refables xs
def J.Refablef : List (Bytes × J) → Prop
  | [] => True
  | (k, x) :: xs => k ≠ jsonPointerKey ∧ J.Refable x ∧ J.Refablef xs
end

mutual
/-- No reference pointer anywhere. -/
def J.NoPtr : J → Prop
  | .arr xs => J.NoPtrs xs
  | .dict _ kvs => J.NoPtrf kvs
  | .ptr _ => False
  | _ => True
def J.NoPtrs : List J → Prop
  | [] => True
  | x :: xs => J.NoPtr x ∧ J.NoPtrs xs
def J.NoPtrf : List (Bytes × J) → Prop
  | [] => True
  | (_, x) :: xs => J.NoPtr x ∧ J.NoPtrf xs
end

/-- A finite `float64` that is exactly a finite `float32` (what `NewFloat32` is given). -/
def IsFloat32 : GoFloat → Prop
  | .fin _ m e => ∃ m' e', Canon f32 m' e' ∧ m * 2 ^ e * 2 ^ f32.bias = m' * 2 ^ e' * 2 ^ f64.bias
  | _ => False

/-- Finite, i.e. neither NaN nor an infinity. -/
def GoFloat.Finite : GoFloat → Prop
  | .fin _ _ _ => True
  | _ => False

/-- Every float of the document is finite; those marked 32 bit hold a `float32`. -/
def J.FiniteFloats (v : J) : Prop := v.FloatsSat fun x bit => x.Finite ∧ (bit = 32 → IsFloat32 x)

end Jsonutils
