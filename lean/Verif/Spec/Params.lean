import Verif.Spec.Query
import Verif.Spec.Rfc8259

/-!
# Specification vocabulary for URL query strings (RFC 3986, HTML forms)

Nothing here models code.
-/

namespace Jsonutils
open Rfc

/-- Percent decoding: `Unescapes s t` iff the text `s` stands for `t`. -/
inductive Unescapes : Bytes → Bytes → Prop where
  | nil : Unescapes [] []
  | plain {c : UInt8} {s t : Bytes} : c ≠ 37 → c ≠ 43 → Unescapes s t → Unescapes (c :: s) (c :: t)
  | plus {s t : Bytes} : Unescapes s t → Unescapes (43 :: s) (32 :: t)
  | hex (a b : HexDigit) {s t : Bytes} : Unescapes s t → Unescapes (37 :: a.byte :: b.byte :: s) (UInt8.ofNat (a.val.val * 16 + b.val.val) :: t)

/-- The piece `p` is `key=value`, or `key` alone, without a semicolon. -/
def Param (p key value : Bytes) : Prop :=
  p ≠ [] ∧ (59 : UInt8) ∉ p ∧
  ((∃ a b, p = a ++ 61 :: b ∧ (61 : UInt8) ∉ a ∧ Unescapes a key ∧ Unescapes b value) ∨ ((61 : UInt8) ∉ p ∧ Unescapes p key ∧ value = []))

/-- The pieces, in order, are these parameters; empty pieces count for nothing. -/
inductive Params : List Bytes → List (Bytes × Bytes) → Prop where
  | nil : Params [] []
  | empty {ps : List Bytes} {kvs : List (Bytes × Bytes)} : Params ps kvs → Params ([] :: ps) kvs
  | cons {p k v : Bytes} {ps : List Bytes} {kvs : List (Bytes × Bytes)} : Param p k v → Params ps kvs → Params (p :: ps) ((k, v) :: kvs)

/-- The query string `str` has the parameters `kvs`. -/
def IsQuery (str : Bytes) (kvs : List (Bytes × Bytes)) : Prop :=
  ∃ ps : List Bytes, ps ≠ [] ∧ (∀ p ∈ ps, (38 : UInt8) ∉ p) ∧ List.intercalate [38] ps = str ∧ Params ps kvs

/-- The values of the key `k`, in order of appearance. -/
def valuesOf (kvs : List (Bytes × Bytes)) (k : Bytes) : List Bytes := (kvs.filter fun e => e.1 = k).map (·.2)

mutual
/-- All texts in a document. -/
def J.texts : J → List Bytes
  | .str s => [s]
  | .arr xs => J.textss xs
  | .dict _ kvs => J.textsf kvs
  | _ => []
def J.textss : List J → List Bytes
  | [] => []
  | x :: xs => x.texts ++ J.textss xs
def J.textsf : List (Bytes × J) → List Bytes
  | [] => []
  | (_, x) :: kvs => x.texts ++ J.textsf kvs
end

end Jsonutils
