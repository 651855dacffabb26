import Verif.Prelude

/-!
# currency.go
-/

namespace Jsonutils

/-- `strings.Replace(s, c, "", -1)` for a one-byte `c`. -/
def removeByte (c : UInt8) (s : Bytes) : Bytes := s.filter (· != c)

/-- currency.go:24-26 `normalizeUSCurrency`. -/
def normalizeUS (s : Bytes) : Bytes := removeByte 44 s

/-- What is before the first `c`, and, if there is one, what is after it: `strings.IndexByte` and the two slices at
currency.go:29-31. -/
def cutAt (c : UInt8) : Bytes → Bytes × Option Bytes
  | [] => ([], none)
  | d :: s => if d = c then ([], some s) else let r := cutAt c s; (d :: r.1, r.2)

/-- currency.go:28-35 `normalizeEUCurrency`. -/
def normalizeEU (s : Bytes) : Bytes :=
  match cutAt 44 s with
  | (pre, some post) => removeByte 46 pre ++ b!"." ++ post
  | (_, none) => removeByte 46 s

/-- currency.go:37-45 `normalizeCurrencyString`; `us` and `eu` are `regutils.MatchUSCurrency` and
`regutils.MatchEUCurrency` (external). -/
def normalizeCurrency (us eu : Bytes → Bool) (s : Bytes) : Bytes :=
  if us s then normalizeUS s else if eu s then normalizeEU s else s

end Jsonutils
