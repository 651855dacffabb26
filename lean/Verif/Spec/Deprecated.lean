import Verif.Model.SortedMap

/-! # What deprecated-by tags should mean -/

namespace Jsonutils

/-- The chain of replacements from `k` ends at `e`, a key that is not deprecated. -/
inductive DepEnd (dep : SMap Bytes) : Bytes → Bytes → Prop
  | here {k} : smGet dep k = none → DepEnd dep k k
  | next {k k' e} : smGet dep k = some k' → DepEnd dep k' e → DepEnd dep k e

/-- The chain of replacements from `k` comes to `x` (in one or more steps). -/
inductive DepReach (dep : SMap Bytes) (x : Bytes) : Bytes → Prop
  | one {k} : smGet dep k = some x → DepReach dep x k
  | next {k k'} : smGet dep k = some k' → DepReach dep x k' → DepReach dep x k

/-- The fields a key stands for: those matching it, and those its fields are deprecated by. -/
inductive StandsFor (idx : Bytes → List Nat) (tag : Nat → Option Bytes) : Bytes → Nat → Prop
  | here {key i} : i ∈ idx key → StandsFor idx tag key i
  | next {key j k' i} : j ∈ idx key → tag j = some k' → StandsFor idx tag k' i → StandsFor idx tag key i

end Jsonutils
