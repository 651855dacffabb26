import Verif.Spec.HeapEdit

/-!
# Vocabulary for histories of calls on memory

`N` says whether the client may put nil variables and reference pointers (results of `Marshal`) into documents.
-/

namespace Jsonutils

/-- What Go's types and the constructors guarantee of an object: an `int64`, a `float64`, sorted keys. -/
def Obj.Fine (N : Prop) : Obj → Prop
  | .int n => InI64 n
  | .float x _ => x.Canonical
  | .dict _ kvs => SMap.Sorted kvs
  | .ptr _ => N
  | _ => True

/-- A variable the client can have: an existing object, or nil if it is allowed. -/
def OkRef (N : Prop) (h : Heap) : Ref → Prop
  | none => N
  | some b => b < h.length

/-- The arguments of the call exist. -/
def Call.Legal (N : Prop) (h : Heap) : Call → Prop
  | .new o => o.Fine N ∧ ∀ r ∈ o.refs, OkRef N h r
  | .set _ _ v => OkRef N h v
  | .setAt _ _ v => OkRef N h v
  | .append _ vs => ∀ v ∈ vs, OkRef N h v
  | .add _ v _ => OkRef N h v
  | .deepCopy ord _ r => (∀ l, (ord l).Perm l) ∧ OkRef N h r
  | _ => True

/-- The call puts nothing inside itself: what is put somewhere does not contain the object it is put into. -/
def Call.Untied (h : Heap) : Call → Prop
  | .set d _ v => ∀ b, v = some b → ¬ Reach h b d
  | .setAt d _ v => ∀ b, v = some b → ¬ Reach h b d
  | .append d vs => ∀ b, some b ∈ vs → ¬ Reach h b d
  | .add d v path => ∀ b p t, v = some b → p <+: path → Way h d (p.map .key) t → ¬ Reach h b t
  | .update d o => ∀ id kvs k b, h[o]? = some (.dict id kvs) → (k, some b) ∈ kvs → ¬ Reach h b d
  | _ => True

/-- Every call of the history satisfies `Q` in the memory it is made in. -/
def Along (Q : Heap → Call → Prop) : Heap → List Call → Prop
  | _, [] => True
  | h, c :: cs => Q h c ∧ Along Q (c.run h) cs

/-- Memory in order: the shared instances are there, every object is as Go's types and the constructors make it, no variable dangles. -/
structure InOrder (N : Prop) (h : Heap) : Prop where
  base : Heap.base <+: h
  fine : ∀ o ∈ h, o.Fine N
  refs : ∀ o ∈ h, ∀ r ∈ o.refs, OkRef N h r

end Jsonutils
