import Verif.Model.Strconv

/-!
# errors.go: error excerpts
-/

namespace Jsonutils

/-- errors.go:41-45 `JSONError`. -/
structure JSONError where
  pos : Int
  substr : Bytes
  msg : Bytes
  deriving DecidableEq, Repr

/-- Go `s[lo:hi]`; `none` = run-time panic (slice bounds out of range; capacity taken equal to length). -/
def goSlice (s : Bytes) (lo hi : Int) : Option Bytes :=
  if 0 ≤ lo ∧ lo ≤ hi ∧ hi ≤ s.length then some ((s.take hi.toNat).drop lo.toNat) else none

/-- Go `make([]byte, n)`; `none` = panic. -/
def goMake (n : Int) : Option Bytes := if 0 ≤ n then some (List.replicate n.toNat 0) else none

/-- Go `copy(dst[off:], src)`: the new `dst`; `none` = panic. -/
def goCopy (dst : Bytes) (off : Int) (src : Bytes) : Option Bytes :=
  if 0 ≤ off ∧ off ≤ dst.length then
    let n := min (dst.length - off.toNat) src.length
    some (dst.take off.toNat ++ src.take n ++ dst.drop (off.toNat + n))
  else none

/-- Go `dst[i] = c`; `none` = panic. -/
def goStore (dst : Bytes) (i : Int) (c : UInt8) : Option Bytes :=
  if 0 ≤ i ∧ i < dst.length then some (dst.set i.toNat c) else none

/-- errors.go:51-74 `NewJSONError(str, pos, msg)`; `none` = panic. `sublen` = 10. -/
def newJSONError (str : Bytes) (pos : Int) (msg : Bytes) : Option JSONError :=
  if str.length = 0 then some ⟨0, [], msg⟩
  else
    let pos := if pos < 0 then 0 else if pos > (str.length : Int) - 1 then (str.length : Int) - 1 else pos
    let start := pos - 10
    let stop := pos + 10
    let start := if start < 0 then 0 else start
    let stop := if stop > str.length then (str.length : Int) else stop
    (goMake (stop - start + 1)).bind fun substr =>
    (goSlice str start pos).bind fun a =>
    (goCopy substr 0 a).bind fun substr =>
    (goStore substr (pos - start) 94).bind fun substr =>
    (goSlice str pos stop).bind fun b =>
    (goCopy substr (pos - start + 1) b).bind fun substr =>
    some ⟨pos, substr, msg⟩

/-- errors.go:47-49 `Error()`. -/
def JSONError.error (e : JSONError) : Bytes :=
  b!"JSON error " ++ e.msg ++ b!" at " ++ intDec e.pos ++ b!": " ++ e.substr ++ b!"..."

end Jsonutils
