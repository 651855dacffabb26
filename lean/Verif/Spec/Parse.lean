import Verif.Model.Parse
import Verif.Spec.Rfc8259

/-! Vocabulary for the properties of the parser. -/

namespace Jsonutils
open Rfc

/-- The last value listed for a key. -/
def lastValue {α} (ps : List (Bytes × α)) (k : Bytes) : Option α :=
  (ps.reverse.find? fun p => p.1 = k).map (·.2)

/-- The same outcome at a position moved by `n`. -/
def SR.shift (n : Nat) : SR → SR
  | .ok v off => .ok v (n + off)
  | .err e off => .err e (n + off)
  | .panic p => .panic p
  | .diverge => .diverge

/-- What `Parse` makes of one string item: as in the RFC, but every surrogate unit becomes U+FFFD. -/
def Rfc.StrItem.decoded : StrItem → Bytes
  | .unicode a b c d =>
    if 0xD800 ≤ unitOf a b c d ∧ unitOf a b c d ≤ 0xDFFF then [0xEF, 0xBF, 0xBD]
    else String.utf8EncodeChar (Char.ofNat (unitOf a b c d))
  | i => i.meaning

/-- A scan of a stream, told without a loop: from the left, the text up to the next `[` or `{` is ignored; if a document
is read there it is reported and the scan continues behind it; if not, a failure is counted and the scan continues
directly behind that bracket.  `Scan stream docs failures`. -/
inductive Scan : Bytes → List J → Nat → Prop where
  | done {junk : Bytes} : (∀ c ∈ junk, c ≠ 91 ∧ c ≠ 123) → Scan junk [] 0
  | found {junk text : Bytes} {v : J} {off : Nat} {vs : List J} {n : Nat} : (∀ c ∈ junk, c ≠ 91 ∧ c ≠ 123) →
      (text.head? = some 91 ∨ text.head? = some 123) → parseStream text 0 = .ok v off →
      Scan (text.drop off) vs n → Scan (junk ++ text) (v :: vs) n
  | failed {junk text : Bytes} {c : UInt8} {e : PErr} {off : Nat} {vs : List J} {n : Nat} :
      (∀ c ∈ junk, c ≠ 91 ∧ c ≠ 123) → (c = 91 ∨ c = 123) → parseStream (c :: text) 0 = .err e off →
      Scan text vs n → Scan (junk ++ c :: text) vs (n + 1)

end Jsonutils
