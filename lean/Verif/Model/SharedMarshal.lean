import Verif.Model.Marshal
import Verif.Model.SharedData

/-!
# `Marshal` of variables that hold documents, in memory

`Model/Marshal` returns a document as a value.  In Go the result is made of new objects and of the very objects that variables of type
`JSONObject`, `*JSONDict`, ... hold.  The variables are those of `Model/SharedData`.  Simplifications: no pointer leads back to itself (so
there are no references, and no node ids); the width that `JSONFloat.String` writes back (marshal.go:57, 93, 106, a `,string` field) is
`Model/SharedText`'s business.
-/

namespace Jsonutils

/-- A number, boolean or text as `Marshal` classifies it (marshal.go:386-399). -/
def scLeaf : UV → DTy → Leaf
  | .bool b, _ => .bool b
  | .int n, _ => .int (wrapI 64 n)
  | .float x, .sc .float32 => .float32 x
  | .float x, _ => .float64 x
  | .str s, _ => .str s
  | _, _ => .nil

/-- A scalar document in memory: marshal.go:169-233.  `JSONNull`, `JSONTrue` and `JSONFalse` are there already (jsonutils.go:66-70). -/
def newScalar (h : Heap) : J → Addr × Heap
  | .null => (nullAddr, h)
  | .bool b => (if b then 1 else 2, h)
  | .int n => h.alloc (.int n)
  | .float x bit => h.alloc (.float x bit)
  | .str s => h.alloc (.str s)
  | _ => (nullAddr, h)                               -- does not occur

/-- The type of the elements, values or of what is pointed to. -/
def DTy.elem : DTy → DTy
  | .slice t => t
  | .map t => t
  | .ptr t => t
  | t => t

/-- The fields of a struct type. -/
def DEnv.fields (D : DEnv) : DTy → List (FInfo × DTy)
  | .struct n => D.defs.getD n []
  | _ => []

/-- marshal.go:55-60, 91-96, 104-109: the new container, or with `ForceString` its text. -/
def boxD (f : Nat) (info : Option FInfo) (o : Obj) (h : Heap) : CRes (Ref × Heap) :=
  let r := h.alloc o
  if optForce info then (textH f r.2 (some r.1)).map fun s => let q := r.2.alloc (.str s); (some q.1, q.2)
  else .ok (some r.1, r.2)

/-- marshal.go:137-165 and 99-110; see `structDict`.  A chain that never ends is out of fuel. -/
def structD (ord : SMap Bytes → List (Bytes × Bytes)) (oe : Bool) (f : Nat) (info : Option FInfo) (pairs : List (Bytes × Ref)) (dep : SMap Bytes)
    (h : Heap) : CRes (Ref × Heap) :=
  match depPairs dep (dep.length + 1) pairs (ord dep) with
  | none => .fuel
  | some dps =>
    if (pairs ++ dps).isEmpty ∧ optEmpty info ∧ oe then .ok (none, h)
    else boxD f info (.dict 0 (pairsDict (pairs ++ dps))) h

section
variable (ord : SMap Bytes → List (Bytes × Bytes)) (oe : Bool) (D : DEnv) (f : Nat)

mutual
/-- marshal.go:263-413 `marshalValue` on the variable content; see `GV.mar`. -/
def DV.marD : DV → DTy → Heap → Option FInfo → CRes (Ref × Heap)
  | .nil, _, h, _ => .ok (if oe then none else some nullAddr, h)
  | .sc x, t, h, info => match (scLeaf x t).marshal info oe with
    | none => .ok (none, h)
    | some j => let r := newScalar h j; .ok (some r.1, r.2)
  | .ref a, _, h, _ => .ok (some a, h)               -- marshal.go:291-299
  | .seq xs _, t, h, info =>
    -- marshal.go:37-61 marshalSlice
    if xs.isEmpty ∧ optEmpty info ∧ oe then .ok (none, h)
    else match DV.marsD xs t.elem h with
      | .ok (rs, h1) => boxD f info (.arr rs) h1
      | .panic => .panic
      | .fuel => .fuel
  | .map kvs, t, h, info =>
    -- marshal.go:69-97 marshalMap
    if kvs.isEmpty ∧ optEmpty info ∧ oe then .ok (none, h)
    else match DV.marmD kvs t.elem h with
      | .ok (ps, h1) => boxD f info (.dict 0 (pairsDict ps)) h1
      | .panic => .panic
      | .fuel => .fuel
  | .struct vs, t, h, info => match DV.marfD vs (D.fields t) h with
    | .ok ((pairs, dep), h1) => structD ord oe f info pairs dep h1
    | .panic => .panic
    | .fuel => .fuel
  | .ptr x, t, h, info => DV.marD x t.elem h info     -- marshal.go:269-287, 400-408
/-- marshal.go:49-54. -/
def DV.marsD : List DV → DTy → Heap → CRes (List Ref × Heap)
  | [], _, h => .ok ([], h)
  | x :: xs, t, h => match DV.marD x t h none with
    | .ok (r, h1) => match DV.marsD xs t h1 with
      | .ok (rs, h2) => .ok (if r.isSome then r :: rs else rs, h2)
      | .panic => .panic
      | .fuel => .fuel
    | .panic => .panic
    | .fuel => .fuel
/-- marshal.go:84-90. -/
def DV.marmD : List (Bytes × DV) → DTy → Heap → CRes (List (Bytes × Ref) × Heap)
  | [], _, h => .ok ([], h)
  | (k, x) :: xs, t, h => match DV.marD x t h none with
    | .ok (r, h1) => match DV.marmD xs t h1 with
      | .ok (rs, h2) => .ok (if r.isSome then (k, r) :: rs else rs, h2)
      | .panic => .panic
      | .fuel => .fuel
    | .panic => .panic
    | .fuel => .fuel
/-- marshal.go:122-136. -/
def DV.marfD : List DV → List (FInfo × DTy) → Heap → CRes ((List (Bytes × Ref) × SMap Bytes) × Heap)
  | x :: xs, (i, t) :: fs, h =>
    if i.ignore then DV.marfD xs fs h
    else match i.deprecatedBy with
      | some k => match DV.marfD xs fs h with
        | .ok ((ps, dep), h') => .ok ((ps, match smGet dep i.name with
          | some _ => dep
          | none => smAdd dep i.name k), h')
        | .panic => .panic
        | .fuel => .fuel
      | none => match DV.marD x t h (some i) with
        | .ok (r, h1) => match DV.marfD xs fs h1 with
          | .ok ((ps, dep), h2) => .ok ((if r.isSome then (i.name, r) :: ps else ps, dep), h2)
          | .panic => .panic
          | .fuel => .fuel
        | .panic => .panic
        | .fuel => .fuel
  | _, _, h => .ok (([], []), h)
end

/-- marshal.go:246-261 `Marshal` (oe) and 415-430 `MarshalAll` (¬oe). -/
def marshalD (t : DTy) (h : Heap) (x : DV) : CRes (Addr × Heap) :=
  (DV.marD ord oe D f x t h none).map fun r => (r.1.getD nullAddr, r.2)

end
end Jsonutils
