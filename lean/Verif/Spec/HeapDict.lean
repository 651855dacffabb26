import Verif.Spec.HeapRead
import Verif.Model.HeapDict

/-!
# Vocabulary for dictionaries made from dictionaries
-/

namespace Jsonutils

/-- The object at `d` is a dictionary, sorted by key, whose entries are exactly those for which `E` holds: the key and the very variable
(that is, the same object). -/
def Holds (h : Heap) (d : Addr) (E : Bytes → Ref → Prop) : Prop :=
  ∃ id m, h[d]? = some (.dict id m) ∧ SMap.Sorted m ∧ ∀ k r, (k, r) ∈ m ↔ E k r

/-- The dictionary at `d` has the entry. -/
def Entry (h : Heap) (d : Addr) (k : Bytes) (r : Ref) : Prop := ∃ id m, h[d]? = some (.dict id m) ∧ (k, r) ∈ m

/-- The dictionary at `d` has the key. -/
def HasKey (h : Heap) (d : Addr) (k : Bytes) : Prop := ∃ r, Entry h d k r

end Jsonutils
