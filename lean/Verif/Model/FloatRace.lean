import Verif.Model.Print

/-!
# `JSONFloat.String` under concurrent callers: string.go:35-40

`String()` is not read-only: it normalises the field `bit`.  Each goroutine runs the statements below; the atomic steps
are the single reads and writes of the shared field `bit` (the field `data` is never written after construction).
Simplification: reads and writes of a machine word are atomic and sequentially consistent (no torn values, no
reordering); under the Go memory model the unsynchronised writes are a data race.
-/

namespace Jsonutils

/-- Where a goroutine is inside `String()`. -/
inductive StrPC where
  | first                 -- string.go:36, about to read `this.bit != 32`
  | second                -- string.go:36, first test true, about to read `this.bit != 64`
  | write                 -- string.go:37, about to write `this.bit = 64`
  | last                  -- string.go:39, about to read `this.bit` for FormatFloat
  | done (text : Bytes)   -- returned
  deriving DecidableEq, Repr

/-- Shared field and the goroutines. -/
structure StrState where
  bit : Nat
  pcs : List StrPC
  deriving Repr

/-- One atomic step of one goroutine on the shared field: new field value and new place. `x` is `this.data`. -/
def strStep (x : GoFloat) (bit : Nat) : StrPC → Nat × StrPC
  | .first => if bit ≠ 32 then (bit, .second) else (bit, .last)
  | .second => if bit ≠ 64 then (bit, .write) else (bit, .last)
  | .write => (64, .last)
  | .last => (bit, .done (formatFloat x bit))
  | .done t => (bit, .done t)

/-- The scheduler runs goroutine `i` for one step (nothing happens if there is no such goroutine). -/
def StrState.run1 (x : GoFloat) (s : StrState) (i : Nat) : StrState :=
  match s.pcs[i]? with
  | none => s
  | some pc => let r := strStep x s.bit pc; ⟨r.1, s.pcs.set i r.2⟩

/-- A whole schedule. -/
def StrState.run (x : GoFloat) (s : StrState) (sched : List Nat) : StrState := sched.foldl (StrState.run1 x) s

/-- `n` goroutines about to call `String()` on a float whose width field is `bit`. -/
def strInit (bit n : Nat) : StrState := ⟨bit, List.replicate n .first⟩

end Jsonutils
