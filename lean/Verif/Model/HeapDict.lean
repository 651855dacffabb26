import Verif.Model.HeapRead

/-!
# Dictionaries made from dictionaries, in memory

`Diff`, `CopyIncludes` and `UpdateDefault` on objects: which variables the new dictionaries hold.  The sorted map package is trusted not to
share its own storage between maps (it is not in /repo).
-/

namespace Jsonutils

/-- clone.go:40-49 `CopyIncludes` of the dictionary at `d`; `none` = the receiver is no dictionary, or a nil entry that is to be copied
panics (clone.go:46). -/
def copyIncludesH (h : Heap) (d : Addr) (ks : List Bytes) : Option (Addr × Heap) :=
  match h[d]? with
  | some (.dict _ kvs) =>
    if nilEntry (kvs.filter fun e => ks.contains e.1) then none
    else some (h.alloc (.dict 0 (kvs.foldl (fun m kv => if ks.contains kv.1 then smAdd m kv.1 kv.2 else m) [])))
  | _ => none

/-- dict.go:29-35 `JSONDict.UpdateDefault`. -/
def updateDefaultH (h : Heap) (d o : Addr) : Option Heap :=
  match h[d]?, h[o]? with
  | some (.dict id kvs), some (.dict _ kvs2) => some (h.set d (.dict id (smMerge kvs2 kvs)))
  | some (.dict _ _), some _ => some h
  | _, _ => none

/-- dict.go:45-55: the loop of `Diff` over the common keys, with the new entries of aDiffB and aAndB so far.  A nil on either side panics
(dict.go:48-49). -/
def diffLoopH (f : Nat) (bA : SMap Ref) : Heap → SMap Ref → SMap Ref → SMap Ref → CRes ((SMap Ref × SMap Ref) × Heap)
  | h, [], dif, same => .ok ((dif, same), h)
  | h, (k, x) :: r, dif, same =>
    let y : Ref := (smGet bA k).getD none
    if x.isNone || y.isNone then .panic
    else match equalsH f h x y with
      | .ok true => diffLoopH f bA h r dif (smAdd same k x)
      | .ok false => let c := h.alloc (.arr [x, y]); diffLoopH f bA c.2 r (smAdd dif k (some c.1)) same
      | .panic => .panic
      | .fuel => .fuel

/-- dict.go:37-58 `Diff(a, b)` on the dictionaries at `a` and `b`: aNoB, aDiffB, aAndB, bNoA and the memory afterwards.  The order of the
allocations is not observable. -/
def diffH (f : Nat) (h : Heap) (a b : Addr) : CRes ((Addr × Addr × Addr × Addr) × Heap) :=
  match h[a]?, h[b]? with
  | some (.dict _ kvs), some (.dict _ kvs2) =>
    let s := smSplit kvs kvs2
    match diffLoopH f s.2.2.1 h s.2.1 [] [] with
    | .ok ((dif, same), h0) =>
      let r1 := h0.alloc (.dict 0 s.1)
      let r2 := r1.2.alloc (.dict 0 dif)
      let r3 := r2.2.alloc (.dict 0 same)
      let r4 := r3.2.alloc (.dict 0 s.2.2.2)
      .ok ((r1.1, r2.1, r3.1, r4.1), r4.2)
    | .panic => .panic
    | .fuel => .fuel
  | _, _ => .panic                             -- the parameters are dictionaries; a nil pointer panics

end Jsonutils
