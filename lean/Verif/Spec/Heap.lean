import Verif.Model.Heap
import Verif.Spec.Dict

/-!
# Vocabulary for documents in memory
-/

namespace Jsonutils

mutual
/-- `v.At h P a`: the object graph starting at address `a` of heap `h` spells the (finite) document `v`, and every object
of it lies at an address satisfying `P`. -/
def J.At (h : Heap) (P : Addr → Prop) : J → Addr → Prop
  | .null, a => P a ∧ h[a]? = some .null
  | .bool b, a => P a ∧ h[a]? = some (.bool b)
  | .int n, a => P a ∧ h[a]? = some (.int n)
  | .float x bit, a => P a ∧ h[a]? = some (.float x bit)
  | .str s, a => P a ∧ h[a]? = some (.str s)
  | .ptr id, a => P a ∧ h[a]? = some (.ptr id)
  | .arr xs, a => P a ∧ ∃ rs, h[a]? = some (.arr rs) ∧ J.Ats h P xs rs
  | .dict id kvs, a => P a ∧ ∃ rs, h[a]? = some (.dict id rs) ∧ J.Atf h P kvs rs
def J.Ats (h : Heap) (P : Addr → Prop) : List J → List Ref → Prop
  | [], rs => rs = []
  | x :: xs, rs => ∃ b rs', rs = some b :: rs' ∧ x.At h P b ∧ J.Ats h P xs rs'
def J.Atf (h : Heap) (P : Addr → Prop) : List (Bytes × J) → SMap Ref → Prop
  | [], rs => rs = []
  | (k, x) :: xs, rs => ∃ b rs', rs = (k, some b) :: rs' ∧ x.At h P b ∧ J.Atf h P xs rs'
end

/-- The document seen at `a`. -/
abbrev J.Seen (h : Heap) (v : J) (a : Addr) : Prop := v.At h (fun _ => True) a

/-- `b` can be reached from `a` through the references stored in objects. -/
inductive Reach (h : Heap) : Addr → Addr → Prop where
  | refl (a : Addr) : Reach h a a
  | step {a b c : Addr} {o : Obj} : h[a]? = some o → some b ∈ o.refs → Reach h b c → Reach h a c

/-- A heap of a running program: the shared instances exist, and no reference dangles. -/
structure Heap.Ok (h : Heap) : Prop where
  base : Heap.base <+: h
  inside : ∀ o ∈ h, ∀ b, some b ∈ o.refs → b < h.length

/-- Calls a client can make later. -/
inductive Call where
  | new (o : Obj)                              -- NewDict(), NewArray(xs...), NewString(s), ...
  | set (d : Addr) (k : Bytes) (v : Ref)
  | remove (d : Addr) (k : Bytes)
  | setAt (d : Addr) (i : Int) (v : Ref)
  | append (d : Addr) (vs : List Ref)
  | add (d : Addr) (v : Ref) (path : List Bytes)
  | update (d o : Addr)
  | floatText (d : Addr)
  | copyExcludes (d : Addr) (ks : List Bytes)
  | arrCopy (d : Addr)
  | deepCopy (ord : SMap Ref → SMap Ref) (fuel : Nat) (r : Ref)

/-- The objects a call mentions. -/
def Call.args : Call → List Ref
  | .new o => o.refs
  | .set d _ v => [some d, v]
  | .remove d _ => [some d]
  | .setAt d _ v => [some d, v]
  | .append d vs => some d :: vs
  | .add d v _ => [some d, v]
  | .update d o => [some d, some o]
  | .floatText d => [some d]
  | .copyExcludes d _ => [some d]
  | .arrCopy d => [some d]
  | .deepCopy _ _ r => [r]

/-- The heap after a call; a call that panics, or whose receiver is of another type, changes nothing. -/
def Call.run (h : Heap) : Call → Heap
  | .new o => (h.alloc o).2
  | .set d k v => (setH h d k v).getD h
  | .remove d k => match removeH h d k with
    | some r => r.2
    | none => h
  | .setAt d i v => (setAtH h d i v).getD h
  | .append d vs => (arrAddH h d vs).getD h
  | .add d v path => match addH h d v path with
    | some r => r.2
    | none => h
  | .update d o => (updateH h d o).getD h
  | .floatText d => (floatTextH h d).getD h
  | .copyExcludes d ks => match copyExcludesH h d ks with
    | some r => r.2
    | none => h
  | .arrCopy d => match arrCopyH h d with
    | some r => r.2
    | none => h
  | .deepCopy ord f r => match deepCopyH ord f h r with
    | .ok r => r.2
    | _ => h

/-- A history of calls. -/
def runCalls (h : Heap) (cs : List Call) : Heap := cs.foldl Call.run h

/-- Every object mentioned in the history satisfies `K`. -/
def Mentions (K : Addr → Prop) (cs : List Call) : Prop := ∀ c ∈ cs, ∀ b, some b ∈ c.args → K b

/-- The object at `x` is a dictionary. -/
def DictAt (h : Heap) (x : Addr) : Prop := ∃ id m, h[x]? = some (.dict id m)

/-- On the way down `path` from the dictionary at `d`, no dictionary below the next step is also reachable through a
sibling entry.  (Sharing elsewhere is allowed.) -/
def Unaliased (h : Heap) : Addr → List Bytes → Prop
  | d, k :: k2 :: ks => ∀ id kvs b, h[d]? = some (.dict id kvs) → smGet kvs k = some (some b) →
      (∀ k' c, k' ≠ k → smGet kvs k' = some (some c) → ∀ x, Reach h b x → DictAt h x → ¬ Reach h c x) ∧
      Unaliased h b (k2 :: ks)
  | _, _ => True

end Jsonutils
