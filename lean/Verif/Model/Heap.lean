import Verif.Model.Dict

/-!
# Documents as objects in memory

The value model (`J`) forgets which objects are shared.  Here a document is a graph of objects at addresses, which is
what `DeepCopy`, the shallow copies and the mutating methods act on.  The object at address `a` is `h[a]?`; a variable of
type `JSONObject` is `none` (nil) or `some a`.  Allocation appends.  The slices inside arrays and sorted maps are part
of the object that owns them (`sortedmap.Add`/`append` results are always stored back into the same object).
-/

namespace Jsonutils

abbrev Addr := Nat

/-- A `JSONObject` variable: nil or a pointer to an object. -/
abbrev Ref := Option Addr

/-- One allocated object: jsonutils.go:63-105, jsonpointer.go:29-32. -/
inductive Obj where
  | null
  | bool (b : Bool)
  | int (n : Int)
  | float (x : GoFloat) (bit : Nat)
  | str (s : Bytes)
  | arr (xs : List Ref)
  | dict (id : Int) (kvs : SMap Ref)
  | ptr (id : Int)
  deriving DecidableEq, Repr

abbrev Heap := List Obj

/-- jsonutils.go:66-70: the shared instances `JSONNull`, `JSONTrue`, `JSONFalse` are allocated first. -/
def Heap.base : Heap := [.null, .bool true, .bool false]

/-- The address of `JSONNull`. -/
def nullAddr : Addr := 0

/-- The variables stored in an object. -/
def Obj.refs : Obj → List Ref
  | .arr xs => xs
  | .dict _ kvs => kvs.map (·.2)
  | _ => []

/-- `new(T)` with content `o`. -/
def Heap.alloc (h : Heap) (o : Obj) : Addr × Heap := (h.length, h ++ [o])

/-- How a call of a recursive function on memory ends: it returns, it panics, or the fuel is used up (with fuel to spare for every finite
document: the Go call recurses forever). -/
inductive CRes (α : Type) where
  | ok (a : α)
  | panic
  | fuel
  deriving DecidableEq, Repr

/-- access.go:264-268: some entry of the dictionary is a nil interface, so `v.(JSONObject)` panics. -/
def nilEntry (kvs : SMap Ref) : Bool := kvs.any fun e => e.2.isNone

mutual
/-- clone.go:84-123 `DeepCopy(obj)`: returned variable and heap.  A dictionary is read with `GetMap` (clone.go:112), which panics on a nil
entry.  `ord` is the iteration order of the Go map at clone.go:113.  The order of the
allocations of a container and its elements is not observable. -/
def deepCopyH (ord : SMap Ref → SMap Ref) : Nat → Heap → Ref → CRes (Ref × Heap)
  | _, h, none => .ok (none, h)
  | 0, _, some _ => .fuel
  | f + 1, h, some a => match h[a]? with
    | none => .ok (none, h)                      -- dangling: does not occur in Go
    | some (.arr xs) => match deepCopysH ord f h xs with
      | .ok (ys, h') => let r := h'.alloc (.arr ys); .ok (some r.1, r.2)
      | .panic => .panic
      | .fuel => .fuel
    | some (.dict _ kvs) =>
      if nilEntry kvs then .panic
      else match deepCopyfH ord f h (ord kvs) [] with
        | .ok (m, h') => let r := h'.alloc (.dict 0 m); .ok (some r.1, r.2)
        | .panic => .panic
        | .fuel => .fuel
    | some (.ptr _) => .ok (none, h)             -- clone.go:122: no case in the type switch
    | some o => let r := h.alloc o; .ok (some r.1, r.2)
/-- clone.go:104-108, the loop over the elements. -/
def deepCopysH (ord : SMap Ref → SMap Ref) : Nat → Heap → List Ref → CRes (List Ref × Heap)
  | 0, _, _ :: _ => .fuel
  | _, h, [] => .ok ([], h)
  | f + 1, h, x :: xs => match deepCopyH ord f h x with
    | .ok (y, h1) => match deepCopysH ord f h1 xs with
      | .ok (ys, h2) => .ok (y :: ys, h2)
      | .panic => .panic
      | .fuel => .fuel
    | .panic => .panic
    | .fuel => .fuel
/-- clone.go:113-116, the loop over the entries; `m` is the new dictionary so far. -/
def deepCopyfH (ord : SMap Ref → SMap Ref) : Nat → Heap → SMap Ref → SMap Ref → CRes (SMap Ref × Heap)
  | 0, _, _ :: _, _ => .fuel
  | _, h, [], m => .ok (m, h)
  | f + 1, h, (k, x) :: kvs, m => match deepCopyH ord f h x with
    | .ok (y, h1) => deepCopyfH ord f h1 kvs (smAdd m k y)
    | .panic => .panic
    | .fuel => .fuel
end

/-- clone.go:24-37 `CopyExcludes` / `Copy` of the dictionary at `d`; `none` = the receiver is no dictionary, or a nil entry that is to be
copied panics (clone.go:34). -/
def copyExcludesH (h : Heap) (d : Addr) (ks : List Bytes) : Option (Addr × Heap) :=
  match h[d]? with
  | some (.dict _ kvs) =>
    if nilEntry (kvs.filter fun e => !ks.contains e.1) then none
    else some (h.alloc (.dict 0 (kvs.foldl (fun m kv => if ks.contains kv.1 then m else smAdd m kv.1 kv.2) [])))
  | _ => none

/-- clone.go:51-57 `JSONArray.Copy`. -/
def arrCopyH (h : Heap) (d : Addr) : Option (Addr × Heap) :=
  match h[d]? with
  | some (.arr xs) => some (h.alloc (.arr xs))
  | _ => none

/-! Mutating methods; `none` = the receiver is not an object of that kind, or (for `setAtH`) the index panic. -/

/-- access.go:76-78 `JSONDict.Set`. -/
def setH (h : Heap) (d : Addr) (k : Bytes) (v : Ref) : Option Heap :=
  match h[d]? with
  | some (.dict id kvs) => some (h.set d (.dict id (smAdd kvs k v)))
  | _ => none

/-- access.go:80-82, 98-106 `JSONDict.Remove`. -/
def removeH (h : Heap) (d : Addr) (k : Bytes) : Option (Bool × Heap) :=
  match h[d]? with
  | some (.dict id kvs) => let r := smDelete kvs k; some (r.2, h.set d (.dict id r.1))
  | _ => none

/-- access.go:132-134 `JSONArray.SetAt`. -/
def setAtH (h : Heap) (d : Addr) (i : Int) (v : Ref) : Option Heap :=
  match h[d]? with
  | some (.arr xs) => if 0 ≤ i ∧ i < xs.length then some (h.set d (.arr (xs.set i.toNat v))) else none
  | _ => none

/-- access.go:136-140 `JSONArray.Add`. -/
def arrAddH (h : Heap) (d : Addr) (vs : List Ref) : Option Heap :=
  match h[d]? with
  | some (.arr xs) => some (h.set d (.arr (xs ++ vs)))
  | _ => none

/-- dict.go:21-27 `JSONDict.Update`. -/
def updateH (h : Heap) (d o : Addr) : Option Heap :=
  match h[d]?, h[o]? with
  | some (.dict id kvs), some (.dict _ kvs2) => some (h.set d (.dict id (smMerge kvs kvs2)))
  | some (.dict _ _), some _ => some h
  | _, _ => none

/-- string.go:35-40 `JSONFloat.String` stores the width. -/
def floatTextH (h : Heap) (d : Addr) : Option Heap :=
  match h[d]? with
  | some (.float x bit) => some (h.set d (.float x (if bit = 32 ∨ bit = 64 then bit else 64)))
  | _ => none

/-- access.go:108-130 `JSONDict.Add(o, keys...)` on the dictionary at `d`.  `o == JSONNull` is equality of addresses. -/
def addH (h : Heap) (d : Addr) (o : Ref) : List Bytes → Option (Option AErr × Heap)
  | [] => some (none, h)
  | [k] => (setH h d k o).map fun h' => (none, h')
  | k :: k2 :: ks => match h[d]? with
    | some (.dict id kvs) =>
      let fresh := match smGet kvs k with
        | none => true
        | some r => r == some nullAddr
      if fresh then
        let r := h.alloc (.dict 0 [])
        addH (r.2.set d (.dict id (smAdd kvs k (some r.1)))) r.1 o (k2 :: ks)
      else match smGet kvs k with
        | some (some b) => match h[b]? with
          | some (.dict _ _) => addH h b o (k2 :: ks)
          | _ => some (some .invalidDict, h)
        | _ => some (some .invalidDict, h)           -- nil interface: type assertion fails
    | _ => none

end Jsonutils
