import Verif.Model.Segments
import Verif.Model.Lex

/-!
# Contract of `net/url.QueryEscape`, `QueryUnescape` and `ParseQuery` (Go standard library)

Called at querystring.go:86, 116, 118, 120.  Written from the documented behaviour of the standard library
(Go 1.18, the version in go.mod); part of the trusted base.
-/

namespace Jsonutils

/-- Bytes that `QueryEscape` leaves alone: `A-Z a-z 0-9 - _ . ~`. -/
def unreserved (c : UInt8) : Bool :=
  (97 ≤ c && c ≤ 122) || (65 ≤ c && c ≤ 90) || (48 ≤ c && c ≤ 57) || c == 45 || c == 95 || c == 46 || c == 126

/-- Upper-case hexadecimal digit. -/
def hexUpper (n : Nat) : UInt8 := if n < 10 then UInt8.ofNat (48 + n) else UInt8.ofNat (55 + n)

/-- One byte of `url.QueryEscape`. -/
def escapeByte (c : UInt8) : Bytes :=
  if c = 32 then [43]
  else if unreserved c then [c]
  else [37, hexUpper (c.toNat / 16), hexUpper (c.toNat % 16)]

/-- `url.QueryEscape(s)`. -/
def queryEscape (s : Bytes) : Bytes := s.flatMap escapeByte

/-- `url.QueryUnescape(s)`; `none` = error (a `%` not followed by two hex digits). -/
def queryUnescape : Bytes → Option Bytes
  | [] => some []
  | 37 :: a :: b :: r => match hexchar2num a, hexchar2num b with
    | some x, some y => (queryUnescape r).map ((x * 16 + y) :: ·)
    | _, _ => none
  | c :: r => if c = 37 then none else (queryUnescape r).map ((if c = 43 then 32 else c) :: ·)

/-- `strings.Cut(s, "=")`: what is before and after the first `=` (nothing after if there is none). -/
def cutEq : Bytes → Bytes × Bytes
  | [] => ([], [])
  | c :: s => if c = 61 then ([], s) else let r := cutEq s; (c :: r.1, r.2)

/-- `url.Values`: a map from key to the list of its values in order of appearance; kept as an association list in order
of first appearance (the iteration order of the Go map is arbitrary and does not matter, see `Model/Query`). -/
abbrev Values := List (Bytes × List Bytes)

/-- `m[key]`; a missing key gives the nil slice. -/
def valuesGet : Values → Bytes → List Bytes
  | [], _ => []
  | (k', vs) :: r, k => if k' = k then vs else valuesGet r k

/-- `m[key] = append(m[key], value)`. -/
def valuesAppend : Values → Bytes → Bytes → Values
  | [], k, v => [(k, [v])]
  | (k', vs) :: r, k, v => if k' = k then (k', vs ++ [v]) :: r else (k', vs) :: valuesAppend r k v

/-- The loop of `url.ParseQuery` over the `&`-separated pieces; the flag says whether some piece was malformed. -/
def parseQueryLoop : List Bytes → Values → Bool → Values × Bool
  | [], m, bad => (m, bad)
  | p :: ps, m, bad =>
    if p.contains 59 then parseQueryLoop ps m true      -- contains ';'
    else if p = [] then parseQueryLoop ps m bad
    else match queryUnescape (cutEq p).1 with
      | none => parseQueryLoop ps m true
      | some k => match queryUnescape (cutEq p).2 with
        | none => parseQueryLoop ps m true
        | some v => parseQueryLoop ps (valuesAppend m k v) bad

/-- `url.ParseQuery(str)`; `none` = a non-nil error, on which jsonutils gives up (querystring.go:87-89). -/
def parseQuery (str : Bytes) : Option Values :=
  let r := parseQueryLoop (splitOn 38 str) [] false
  if r.2 then none else some r.1

end Jsonutils
