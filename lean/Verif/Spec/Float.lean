import Verif.Spec.Rfc8259

/-!
# What floating point texts should mean

Binary formats as sets of numbers `m · 2^(e - bias)`; all comparisons of rationals are written with the denominators
multiplied out.
-/

namespace Jsonutils

/-- `|a - b|` -/
def absDiff (a b : Nat) : Nat := (a - b) + (b - a)

/-- The distance of `num/den` from `m · 2^(e - bias)`, times `den · 2^bias`. -/
def gap (f : FFmt) (num den m e : Nat) : Nat := absDiff (num * 2 ^ f.bias) (m * 2 ^ e * den)

/-- `m · 2^(e - bias)` is the number of the format nearest to `num/den`; of two equally near ones, the one with the even last bit. -/
structure NearestEven (f : FFmt) (num den m e : Nat) : Prop where
  inFormat : Canon f m e
  nearest : ∀ m' e', Canon f m' e' → gap f num den m e ≤ gap f num den m' e'
  tie : ∀ m' e', Canon f m' e' → gap f num den m' e' = gap f num den m e → (m' = m ∧ e' = e) ∨ m % 2 = 0

/-- `num/den` is at least halfway from the largest number of the format, `(2^prec - 1) · 2^(maxE - bias)`, to the next power of two:
`num/den ≥ (2^prec - 1/2) · 2^(maxE - bias)`. -/
def TooBig (f : FFmt) (num den : Nat) : Prop := (2 * 2 ^ f.prec - 1) * 2 ^ f.maxE * den ≤ 2 * (num * 2 ^ f.bias)

/-- Rounding the decimal number `c · 10^k` gives `m · 2^(e - bias)`. -/
def ReadsAs (f : FFmt) (c : Nat) (k : Int) (m e : Nat) : Prop :=
  NearestEven f (c * 10 ^ k.toNat) (10 ^ (-k).toNat) m e ∧ ¬ TooBig f (c * 10 ^ k.toNat) (10 ^ (-k).toNat)

/-- `c · 10^k` is the shortest decimal number for `m · 2^(e - bias)`: it reads as this number; no decimal number whose last digit is
further to the left does; and of those with as many digits it is the nearest, or one of two equally near with an even last digit. -/
structure ShortestDec (f : FFmt) (m e c : Nat) (k : Int) : Prop where
  reads : ReadsAs f c k m e
  fewest : ∀ c' k', ReadsAs f c' k' m e → k' ≤ k
  nearest : ∀ c', ReadsAs f c' k m e → gap f (c * 10 ^ k.toNat) (10 ^ (-k).toNat) m e ≤ gap f (c' * 10 ^ k.toNat) (10 ^ (-k).toNat) m e
  tie : ∀ c', ReadsAs f c' k m e → gap f (c' * 10 ^ k.toNat) (10 ^ (-k).toNat) m e = gap f (c * 10 ^ k.toNat) (10 ^ (-k).toNat) m e →
    c' = c ∨ c % 2 = 0

/-- `n` is `± c · 10^k`, without exponent, written with no more digits than that takes. -/
structure IsDecimal (n : Rfc.Number) (neg : Bool) (c : Nat) (k : Int) : Prop where
  sign : n.neg = neg
  noExp : n.exp = none
  mant : n.mant = c * 10 ^ (k - n.power).toNat
  power : n.power = min k 0

/-- `s` is the float with six digits behind the point: the multiple of 10^-6 nearest to it, the even one of two. -/
inductive SixDigits : GoFloat → Bytes → Prop
  | nan : SixDigits .nan b!"NaN"
  | inf : SixDigits (.inf false) b!"+Inf"
  | negInf : SixDigits (.inf true) b!"-Inf"
  | fin {neg : Bool} {m e c : Nat} {s : Bytes} :
      (∀ c', absDiff (m * 2 ^ e * 10 ^ 6) (c * 2 ^ f64.bias) ≤ absDiff (m * 2 ^ e * 10 ^ 6) (c' * 2 ^ f64.bias)) →
      (∀ c', absDiff (m * 2 ^ e * 10 ^ 6) (c' * 2 ^ f64.bias) = absDiff (m * 2 ^ e * 10 ^ 6) (c * 2 ^ f64.bias) → c' = c ∨ c % 2 = 0) →
      (0 < c → ∃ n : Rfc.Number, n.text = s ∧ IsDecimal n neg c (-6)) → (c = 0 → s = if neg then b!"-0.000000" else b!"0.000000") →
      SixDigits (.fin neg m e) s

end Jsonutils
