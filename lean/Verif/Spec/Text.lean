import Verif.Prelude

/-! Decimal texts, stated without reference to any parser. -/

namespace Jsonutils

/-- Value of a list of ASCII digits, most significant first. -/
def decimalValue (ds : Bytes) : Nat := ds.foldl (fun a c => 10 * a + (c.toNat - 48)) 0

/-- `s` is `[+-]?[0-9]+` and denotes `n`. -/
inductive DecimalText : Bytes → Int → Prop where
  | plain {ds : Bytes} : ds ≠ [] → (∀ c ∈ ds, isDigit c = true) → DecimalText ds (decimalValue ds)
  | plus {ds : Bytes} : ds ≠ [] → (∀ c ∈ ds, isDigit c = true) → DecimalText (43 :: ds) (decimalValue ds)
  | minus {ds : Bytes} : ds ≠ [] → (∀ c ∈ ds, isDigit c = true) → DecimalText (45 :: ds) (-(decimalValue ds : Int))

/-- Canonical decimal text: no plus sign, no leading zero, no minus zero. -/
def CanonicalDecimal (s : Bytes) : Prop :=
  s = [48] ∨ (∃ c ds, s = c :: ds ∧ c ≠ 48 ∧ ∀ d ∈ c :: ds, isDigit d = true) ∨
  (∃ c ds, s = 45 :: c :: ds ∧ c ≠ 48 ∧ ∀ d ∈ c :: ds, isDigit d = true)

end Jsonutils
