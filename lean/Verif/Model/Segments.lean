import Verif.Model.Strconv

/-!
# stringsegment.go: dotted keys as lists of text/number segments
-/

namespace Jsonutils

/-- stringsegment.go:27-31 `sTextNumber`. -/
structure TextNumber where
  text : Bytes
  number : Int
  isNumber : Bool
  deriving DecidableEq, Repr, Inhabited

/-- stringsegment.go:33-56 `compare`. -/
def TextNumber.compare (a b : TextNumber) : Int :=
  if a.isNumber && !b.isNumber then -1
  else if !a.isNumber && b.isNumber then 1
  else if a.isNumber && b.isNumber then
    if a.number < b.number then -1 else if a.number > b.number then 1 else 0
  else if blt a.text b.text then -1 else if blt b.text a.text then 1 else 0

/-- stringsegment.go:58-64 `String()`. -/
def TextNumber.toText (a : TextNumber) : Bytes := if a.isNumber then intDec a.number else a.text

/-- stringsegment.go:66-73 `string2TextNumber`. -/
def string2TextNumber (s : Bytes) : TextNumber :=
  match parseInt s with
  | none => ⟨s, 0, false⟩
  | some n => ⟨[], n, true⟩

/-- `strings.Split(s, sep)` for a one-byte separator: always at least one piece. -/
def splitOn (sep : UInt8) : Bytes → List Bytes
  | [] => [[]]
  | c :: s =>
    if c = sep then [] :: splitOn sep s
    else match splitOn sep s with
      | [] => [[c]]   -- unreachable: `splitOn` never returns the empty list
      | p :: ps => (c :: p) :: ps

/-- `strings.Join(parts, sep)`. -/
def joinWith (sep : Bytes) : List Bytes → Bytes
  | [] => []
  | [p] => p
  | p :: q :: r => p ++ sep ++ joinWith sep (q :: r)

/-- stringsegment.go:75-82 `string2Segments`. -/
def string2Segments (s : Bytes) : List TextNumber := (splitOn 46 s).map string2TextNumber

/-- stringsegment.go:84-90 `segments2string`. -/
def segments2string (segs : List TextNumber) : Bytes := joinWith [46] (segs.map TextNumber.toText)

/-- stringsegment.go:102-110: the loop of `Less` over two lists of equal length. -/
def segsLessLoop : List TextNumber → List TextNumber → Bool
  | a :: as, b :: bs =>
    if a.compare b < 0 then true else if a.compare b > 0 then false else segsLessLoop as bs
  | _, _ => false

/-- stringsegment.go:96-111 `Less`. -/
def segsLess (a b : List TextNumber) : Bool :=
  if a.length < b.length then true
  else if a.length > b.length then false
  else segsLessLoop a b

/-- `sort.Sort(segmentKeys)` (querystring.go:96), as an insertion sort; `Segments.sort_unique` shows that any sorting
algorithm gives this result, because elements that tie are identical. -/
def insertSegs (x : List TextNumber) : List (List TextNumber) → List (List TextNumber)
  | [] => [x]
  | y :: ys => if segsLess y x then y :: insertSegs x ys else x :: y :: ys

def sortSegs : List (List TextNumber) → List (List TextNumber)
  | [] => []
  | x :: xs => insertSegs x (sortSegs xs)

end Jsonutils
