import Verif.Spec.HeapRead
import Verif.Model.HeapAccess

/-!
# Vocabulary for readers on memory
-/

namespace Jsonutils

/-- The result of a reader on documents, as the reader on memory gives it after at most so many nested calls. -/
def Res.inMemory {α} : Res α → ARes α
  | .ok a => .ok a
  | .err e => .err e
  | .diverge => .fuel

/-- The same for readers that end in any case. -/
def Res.ended {α} (r : Res α) (x : GRes α) : Prop :=
  match r with
  | .ok a => x = .ok a
  | .err e => x = .err e
  | .diverge => False

/-- The first entry whose key is the same up to case. -/
def FirstFold (fold : Bytes → Bytes) (kvs : SMap Ref) (k : Bytes) (r : Ref) : Prop :=
  ∃ before k' after, kvs = before ++ (k', r) :: after ∧ fold k' = fold k ∧ ∀ e ∈ before, fold e.1 ≠ fold k

/-- Following the keys, one dictionary after the other and always to the first entry with this key up to case, one comes to `r`. -/
inductive LeadsFold (fold : Bytes → Bytes) (h : Heap) : Addr → List Bytes → Ref → Prop where
  | last {a : Addr} {id : Int} {kvs : SMap Ref} {k : Bytes} {r : Ref} : h[a]? = some (.dict id kvs) → FirstFold fold kvs k r → LeadsFold fold h a [k] r
  | step {a b : Addr} {id : Int} {kvs : SMap Ref} {k k2 : Bytes} {ks : List Bytes} {r : Ref} : h[a]? = some (.dict id kvs) →
      FirstFold fold kvs k (some b) → LeadsFold fold h b (k2 :: ks) r → LeadsFold fold h a (k :: k2 :: ks) r

end Jsonutils
