import Verif.Spec.Float
import Verif.Spec.Text

/-!
# Which texts are floating point numbers

The floating point literals of the Go language with an optional sign (decimal or hexadecimal, with underscores between digits), and the
words for infinity and NaN.  Stated without reference to any parser.
-/

namespace Jsonutils
namespace Numeral

/-- A digit: decimal, or, in a hexadecimal numeral, also `a`–`f` in either case. -/
def DigitIn (hex : Bool) (c : UInt8) : Prop :=
  (48 ≤ c.toNat ∧ c.toNat ≤ 57) ∨ (hex = true ∧ ((97 ≤ c.toNat ∧ c.toNat ≤ 102) ∨ (65 ≤ c.toNat ∧ c.toNat ≤ 70)))

/-- What a digit is worth. -/
def digitWorth (c : UInt8) : Nat :=
  if c.toNat ≤ 57 then c.toNat - 48 else if c.toNat ≤ 70 then c.toNat - 55 else c.toNat - 87

/-- The natural number written by digits in a base. -/
def worth (base : Nat) (ds : Bytes) : Nat := ds.foldl (fun a c => a * base + digitWorth c) 0

/-- The exponent of a numeral: the letter, the sign, the digits. -/
structure Expo where
  letter : UInt8
  sign : Bytes
  digits : Bytes

/-- The parts of a numeral: sign, `0x` or nothing, the digits before the point, the point with the digits behind it, the exponent. -/
structure Parts where
  sign : Bytes
  pre : Bytes
  int : Bytes
  frac : Option Bytes
  exp : Option Expo

def signOk (s : Bytes) : Prop := s = [] ∨ s = b!"+" ∨ s = b!"-"

def Expo.text (e : Expo) : Bytes := e.letter :: (e.sign ++ e.digits)

def fracBytes : Option Bytes → Bytes
  | none => []
  | some ds => 46 :: ds

def expBytes : Option Expo → Bytes
  | none => []
  | some e => e.text

/-- The parts one after the other. -/
def Parts.text (n : Parts) : Bytes := n.sign ++ (n.pre ++ (n.int ++ (fracBytes n.frac ++ expBytes n.exp)))

/-- The exponent begins with `e` (hexadecimal: `p`) in either case, may have a sign, and has at least one decimal digit. -/
structure Expo.Ok (hex : Bool) (e : Expo) : Prop where
  letter : if hex then e.letter = 112 ∨ e.letter = 80 else e.letter = 101 ∨ e.letter = 69
  sign : signOk e.sign
  digits : ∀ c ∈ e.digits, DigitIn false c
  nonempty : e.digits ≠ []

/-- A numeral has at least one digit before or behind the point; a hexadecimal one must have an exponent. -/
structure Parts.Ok (hex : Bool) (n : Parts) : Prop where
  sign : signOk n.sign
  pre : if hex then n.pre = b!"0x" ∨ n.pre = b!"0X" else n.pre = []
  int : ∀ c ∈ n.int, DigitIn hex c
  frac : ∀ ds, n.frac = some ds → ∀ c ∈ ds, DigitIn hex c
  nonempty : n.int ++ n.frac.getD [] ≠ []
  exp : ∀ e, n.exp = some e → e.Ok hex
  must : hex = true → n.exp ≠ none

/-- The numeral is negative. -/
def Parts.neg (n : Parts) : Bool := n.sign == b!"-"

/-- The digits of an exponent that count: without leading zeros, at most the first five. -/
def countedDigits (ds : Bytes) : Bytes := (ds.dropWhile (· == 48)).take 5

/-- The exponent as a number.  (One of 100000 or more is cut to its first five digits.) -/
def Expo.value (e : Expo) : Int := if e.sign = b!"-" then -(worth 10 (countedDigits e.digits) : Int) else worth 10 (countedDigits e.digits)

/-- The digits of the numeral as a whole number. -/
def Parts.mant (hex : Bool) (n : Parts) : Nat := worth (if hex then 16 else 10) (n.int ++ n.frac.getD [])

/-- The power of 10 (hexadecimal: of 2) this is multiplied by. -/
def Parts.power (hex : Bool) (n : Parts) : Int :=
  (match n.exp with | none => 0 | some e => e.value) - (if hex then 4 else 1) * ((n.frac.getD []).length : Int)

/-- The numeral denotes `± num/den`. -/
def Parts.num (hex : Bool) (n : Parts) : Nat := n.mant hex * (if hex then 2 else 10) ^ (n.power hex).toNat
def Parts.den (hex : Bool) (n : Parts) : Nat := (if hex then 2 else 10) ^ (-(n.power hex)).toNat

/-- After `a` an underscore may stand: `a` ends with a digit, or with the prefix of a hexadecimal numeral. -/
def MayFollow (hex : Bool) (a : Bytes) : Prop :=
  (∃ a' c, a = a' ++ [c] ∧ DigitIn hex c) ∨ (hex = true ∧ ∃ sign, signOk sign ∧ (a = sign ++ b!"0x" ∨ a = sign ++ b!"0X"))

/-- Every underscore stands between two digits, or between prefix and first digit. -/
def Separates (hex : Bool) (s : Bytes) : Prop :=
  ∀ a b, s = a ++ 95 :: b → MayFollow hex a ∧ (∃ d b', b = d :: b' ∧ DigitIn hex d)

/-- `s` is a numeral with the parts `n`, perhaps with underscores. -/
def Written (hex : Bool) (n : Parts) (s : Bytes) : Prop :=
  n.Ok hex ∧ s.filter (· ≠ 95) = n.text ∧ Separates hex s

/-- `s` is a signed decimal integer of 64 bits. -/
def IsInt64 (s : Bytes) (n : Int) : Prop := DecimalText s n ∧ InI64 n

/-- What a text means as a floating point number. -/
inductive Denotes (s : Bytes) : GoFloat → Prop where
  | inf {sign w : Bytes} : s = sign ++ w → signOk sign → lowerBytes w = b!"inf" ∨ lowerBytes w = b!"infinity" → Denotes s (.inf (sign == b!"-"))
  | nan : lowerBytes s = b!"nan" → Denotes s .nan
  | num {hex : Bool} {n : Parts} {m e : Nat} : Written hex n s → NearestEven f64 (n.num hex) (n.den hex) m e →
      ¬ TooBig f64 (n.num hex) (n.den hex) → Denotes s (.fin n.neg m e)

end Numeral
end Jsonutils
