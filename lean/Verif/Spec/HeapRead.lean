import Verif.Spec.HeapCopy
import Verif.Model.HeapRead

/-!
# Vocabulary for documents with nil in them
-/

namespace Jsonutils

/-- No object below the variable contains itself. -/
inductive Knotless (h : Heap) : Ref → Prop where
  | nil : Knotless h none
  | node {a : Addr} {o : Obj} : h[a]? = some o → (∀ r ∈ o.refs, Knotless h r) → Knotless h (some a)

/-- Somewhere below the variable there is a dictionary with a nil entry. -/
inductive HasNilEntry (h : Heap) : Ref → Prop where
  | here {a : Addr} {id : Int} {kvs : SMap Ref} {k : Bytes} : h[a]? = some (.dict id kvs) → (k, none) ∈ kvs → HasNilEntry h (some a)
  | inside {a : Addr} {o : Obj} {r : Ref} : h[a]? = some o → r ∈ o.refs → HasNilEntry h r → HasNilEntry h (some a)

/-- Following the keys, one dictionary after the other, from the object at `a` one comes to the variable `r`. -/
inductive Leads (h : Heap) : Addr → List Bytes → Ref → Prop where
  | last {a : Addr} {id : Int} {kvs : SMap Ref} {k : Bytes} {r : Ref} : h[a]? = some (.dict id kvs) → (k, r) ∈ kvs → Leads h a [k] r
  | step {a b : Addr} {id : Int} {kvs : SMap Ref} {k k2 : Bytes} {ks : List Bytes} {r : Ref} : h[a]? = some (.dict id kvs) →
      (k, some b) ∈ kvs → Leads h b (k2 :: ks) r → Leads h a (k :: k2 :: ks) r

/-- The variable holds a dictionary. -/
def IsDict (h : Heap) (r : Ref) : Prop := ∃ b id kvs, r = some b ∧ h[b]? = some (.dict id kvs)

/-- Whatever the fuel beyond some point, the call ends in `x`. -/
def Eventually {α} (call : Nat → CRes α) (x : CRes α) : Prop := ∃ f0, ∀ f, f0 ≤ f → call f = x

/-- The call never ends. -/
def Never {α} (call : Nat → CRes α) : Prop := ∀ f, call f = .fuel

/-- The call computes `F` of the document at `a`, and how it ends otherwise: it returns exactly if what is at `a` spells a document; on a
graph without cycles it panics if there is a nil in it; on a graph with cycles and without nil it never ends. -/
def Reads {α} (call : Nat → CRes α) (F : J → α) (h : Heap) (a : Addr) : Prop :=
  (∀ v, J.Seen h v a → Eventually call (.ok (F v))) ∧
  (∀ f out, call f = .ok out → ∃ v, J.Seen h v a ∧ out = F v) ∧
  (Knotless h (some a) → HasNil h (some a) → Eventually call .panic) ∧
  (¬ Knotless h (some a) → ¬ HasNil h (some a) → Never call)

end Jsonutils
