import Verif.Spec.Params
import Verif.Spec.Dict

/-!
# Specification vocabulary for query strings with dotted keys

Nothing here models code.
-/

namespace Jsonutils

/-- A dotted key none of whose pieces behind the first is a number (and whose first piece, if a number, is canonical). -/
def NestedKey (key : Bytes) : Prop :=
  ∀ k ks, Pieces key (k :: ks) → QueryKey k ∧ ∀ p ∈ ks, ¬ ∃ n, IsNumber p n

/-- The values of one key as a document: a single one is a text, several are the array of the texts. -/
def FromValues (vs : List Bytes) (w : J) : Prop :=
  (∃ v, vs = [v] ∧ w = .str v) ∨ (2 ≤ vs.length ∧ w = .arr (vs.map .str))

/-- `ps` are the pieces of a key of the parameters `kvs`. -/
def KeyPath (kvs : List (Bytes × Bytes)) (ps : List Bytes) : Prop := ∃ key v, (key, v) ∈ kvs ∧ Pieces key ps

/-- No key of the parameters stops on the way to `ps`. -/
def Unblocked (kvs : List (Bytes × Bytes)) (ps : List Bytes) : Prop := ∀ qs, KeyPath kvs qs → qs <+: ps → qs = ps

end Jsonutils
