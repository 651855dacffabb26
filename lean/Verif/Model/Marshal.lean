import Verif.Model.Deprecated
import Verif.Model.Print

/-!
# `Marshal`: marshal.go, marshal_session.go, jsonpointer.go, json_pointer_trace.go

Go values are modelled after reflection has classified them.  Memory is a list of values; a pointer is an index into it.
-/

namespace Jsonutils

/-- The part of `reflectutils.SStructFieldInfo` the code reads: marshal.go:124-131 and the `info.*` tests.
How these are derived from tags and field names is reflectutils' business (external). -/
structure FInfo where
  ignore : Bool := false
  name : Bytes                          -- MarshalName()
  omitEmpty : Bool := false
  omitZero : Bool := false
  omitFalse : Bool := false
  forceString : Bool := false
  deprecatedBy : Option Bytes := none   -- Tags[TAG_DEPRECATED_BY]
  deriving DecidableEq, Repr

/-- Values that are marshalled without looking at further Go values. -/
inductive Leaf where
  | nil                          -- nil slice, map, pointer, interface, *JSONDict, ...
  | bool (b : Bool)
  | int (n : Int)                -- any integer kind, after conversion to int64 (marshal.go:390-393)
  | float32 (x : GoFloat)        -- the value as float64
  | float64 (x : GoFloat)
  | str (s : Bytes)
  | tri (t : Option Bool)        -- tristate.TriState: True, False, None
  | time (t : Option Bytes)      -- time.Time: none = zero time, some s = FullIsoTime of it (external)
  | jsonVal (j : J)              -- JSONDict, JSONArray, ... held by value
  | jsonIface (j : J)            -- a non-nil JSONObject
  | std (j : J)                  -- implements json.Marshaler; j = Parse(MarshalJSON()) (std_json.go:104-121; its panics are not modelled)
  | other                        -- channel, function, ...
  deriving Repr

def optEmpty (info : Option FInfo) : Bool := match info with | some i => i.omitEmpty | none => false
def optZero (info : Option FInfo) : Bool := match info with | some i => i.omitZero | none => false
def optFalse (info : Option FInfo) : Bool := match info with | some i => i.omitFalse | none => false
def optForce (info : Option FInfo) : Bool := match info with | some i => i.forceString | none => false

/-- `val == 0.0` in Go. -/
def GoFloat.isZero : GoFloat → Bool
  | .fin _ 0 _ => true
  | _ => false

/-- marshal.go:169-177 `marshalInt64`. -/
def marshalInt64 (n : Int) (info : Option FInfo) (oe : Bool) : Option J :=
  if n = 0 ∧ optZero info ∧ oe then none
  else if optForce info then some (.str (intDec n)) else some (newInt n)

/-- marshal.go:179-187 `marshalFloat64`. -/
def marshalFloat64 (x : GoFloat) (info : Option FInfo) (oe : Bool) : Option J :=
  if x.isZero ∧ optZero info ∧ oe then none
  else if optForce info then some (.str (sprintfF x)) else some (newFloat64 x)

/-- marshal.go:189-197 `marshalFloat32`. -/
def marshalFloat32 (x : GoFloat) (info : Option FInfo) (oe : Bool) : Option J :=
  if x.isZero ∧ optZero info ∧ oe then none
  else if optForce info then some (.str (sprintfF x)) else some (newFloat32 x)

/-- marshal.go:199-211 `marshalBoolean`. -/
def marshalBoolean (b : Bool) (info : Option FInfo) (oe : Bool) : Option J :=
  if !b ∧ optFalse info ∧ oe then none
  else if optForce info then some (.str (if b then b!"true" else b!"false")) else some (.bool b)

/-- marshal.go:213-225 `marshalTristate`. -/
def marshalTristate (t : Option Bool) (oe : Bool) : Option J :=
  match t with
  | some b => some (.bool b)
  | none => if oe then none else some .null

/-- marshal.go:227-233 `marshalString`. -/
def marshalString (s : Bytes) (info : Option FInfo) (oe : Bool) : Option J :=
  if s.isEmpty ∧ optEmpty info ∧ oe then none else some (.str s)

/-- marshal.go:235-244 `marshalTime`. -/
def marshalTime (t : Option Bytes) (info : Option FInfo) (oe : Bool) : Option J :=
  match t with
  | none => if optEmpty info ∧ oe then none else some (.str [])
  | some s => some (.str s)

/-- The emptiness tests of marshal.go:300-359. -/
def J.emptyVal : J → Bool
  | .dict _ kvs => kvs.isEmpty
  | .arr xs => xs.isEmpty
  | .bool b => !b
  | .int n => n == 0
  | .float x _ => x.isZero
  | .str s => s.isEmpty
  | _ => false

/-- marshal.go:289-413 `_marshalValue`, the cases that do not recurse.  `none` = the nil interface. -/
def Leaf.marshal (info : Option FInfo) (oe : Bool) : Leaf → Option J
  | .nil => if oe then none else some .null
  | .bool b => marshalBoolean b info oe
  | .int n => marshalInt64 n info oe
  | .float32 x => marshalFloat32 x info oe
  | .float64 x => marshalFloat64 x info oe
  | .str s => marshalString s info oe
  | .tri t => marshalTristate t oe
  | .time t => marshalTime t info oe
  | .jsonVal j => if j.emptyVal ∧ optEmpty info ∧ oe then none else some j
  | .jsonIface j => some j
  | .std j => some j
  | .other => some .null

/-- A Go value.  A map is the list of its entries in the order in which they are marshalled, with the keys as written (see
`Model/MarshalMap` for the keys of Go maps and their order).  Simplifications:
struct fields are listed as `reflectutils.FetchStructFieldValueSet` flattens them; two pointers are equal as interfaces
(json_pointer_trace.go:56) iff they are the same index. -/
inductive GV where
  | leaf (l : Leaf)
  | jsonPtr (j : J)                          -- non-nil *JSONDict, *JSONArray, ...
  | seq (xs : List GV)                       -- non-nil slice, or array
  | map (kvs : List (Bytes × GV))            -- non-nil map
  | struct (fs : List (FInfo × GV))
  | iface (x : GV)                           -- non-nil interface
  | ptr (a : Nat)                            -- non-nil pointer
  | shared (a : Nat)                         -- a slice or map whose backing store is at a (no pointer in Go's sense)

/-- The output while a session runs: documents whose dictionaries do not have their node ids yet. `marks` are the
pointers (`sJSONPointer.node`) that refer to the dictionary. -/
inductive MJ where
  | json (j : J)
  | ref (id : Nat)
  | arr (xs : List MJ)
  | dict (marks : List Nat) (kvs : List (Bytes × MJ))

mutual
/-- jsonpointer.go:51-57 `setAllNodeId`: a dictionary gets the id of a pointer to it that is `live` (refcnt > 1).  With
several, the last one in the iteration order of the Go map wins: `pick`. -/
def MJ.finish (live : Nat → Bool) (pick : List Nat → Nat) : MJ → J
  | .json j => j
  | .ref id => .ptr id
  | .arr xs => .arr (MJ.finishs live pick xs)
  | .dict marks kvs =>
    let ids := marks.filter live
    .dict (if ids.isEmpty then 0 else pick ids) (MJ.finishf live pick kvs)
def MJ.finishs (live : Nat → Bool) (pick : List Nat → Nat) : List MJ → List J
  | [] => []
  | x :: xs => x.finish live pick :: MJ.finishs live pick xs
def MJ.finishf (live : Nat → Bool) (pick : List Nat → Nat) : List (Bytes × MJ) → List (Bytes × J)
  | [] => []
  | (k, x) :: xs => (k, x.finish live pick) :: MJ.finishf live pick xs
end

/-- The document as printed while the session runs: no node ids yet. -/
def MJ.plain (m : MJ) : J := m.finish (fun _ => false) (fun _ => 0)

/-- json_pointer_trace.go:22-26 `sJsonPointerNode`. -/
structure TEntry where
  id : Nat
  inf : Nat
  refcnt : Nat
  deriving DecidableEq, Repr

/-- marshal_session.go:17-21 `sJsonMarshalSession`.  `nodeMap` is left out: a node popped off the trace has refcnt 1 and
is never touched again, so `setAllNodeId` only acts on nodes still in the trace. -/
structure MSess where
  nodeIndex : Nat
  trace : List TEntry
  deriving DecidableEq, Repr

/-- marshal_session.go:23-29. -/
def MSess.init : MSess := ⟨0, []⟩

/-- json_pointer_trace.go:53-64 `find(inf)`: the loop, `ret` = what was found so far. -/
def traceFind (inf : Nat) : Option Nat → List TEntry → Option Nat × List TEntry
  | ret, [] => (ret, [])
  | ret, e :: t =>
    let ret' := if e.inf = inf then some e.id else ret
    let e' := if ret'.isSome then { e with refcnt := e.refcnt + 1 } else e
    let r := traceFind inf ret' t
    (r.1, e' :: r.2)

/-- json_pointer_trace.go:66-71 `pop`. -/
def tracePop (t : List TEntry) : List TEntry :=
  match t.getLast? with
  | some e => if e.refcnt = 1 then t.dropLast else t
  | none => t

/-- jsonpointer.go:44-47: `ptr.node = obj` if it is a dictionary.  (For a document of the user, the pointer can
never become live, as nothing below it is searched; so nothing is recorded.) -/
def MJ.mark (id : Nat) : MJ → MJ
  | .dict ms kvs => .dict (ms ++ [id]) kvs
  | m => m

/-- jsonpointer.go:51-57: is the node's refcnt above 1 at the end? -/
def MSess.live (s : MSess) (id : Nat) : Bool := s.trace.any fun e => e.id == id && decide (1 < e.refcnt)

/-- marshal.go:56-60, 92-96, 105-109: with `ForceString` the text of the container, as a string. -/
def forceStr (info : Option FInfo) (m : MJ) : MJ :=
  if optForce info then .json (.str m.plain.toBytes) else m

/-- access.go:32-38 `NewDict(pairs...)`. -/
def pairsDict {α} (ps : List (Bytes × α)) : SMap α := ps.foldl (fun m p => smAdd m p.1 p.2) []

/-- marshal.go:269-287 `marshalValueWithObjectMap`, pointer case; `body` marshals the target. -/
def marshalPtr (a : Nat) (s : MSess) (body : MSess → Option (MSess × Option MJ)) : Option (MSess × Option MJ) :=
  match traceFind a none s.trace with
  | (some id, t) => some ({ s with trace := t }, some (.ref id))
  | (none, t) =>
    let id := s.nodeIndex + 1
    match body ⟨id, t ++ [⟨id, a, 1⟩]⟩ with
    | none => none
    | some (s', o) => some ({ s' with trace := tracePop s'.trace }, o.map (MJ.mark id))

/-- marshal.go:137-165 and 99-110: from the pairs of the proper fields to the dictionary.  `ord` is the iteration order
of the Go map of deprecated keys.  Outer `none` = the loop over a deprecated-by chain never ends. -/
def structDict (ord : SMap Bytes → List (Bytes × Bytes)) (oe : Bool) (info : Option FInfo) (pairs : List (Bytes × MJ)) (dep : SMap Bytes) :
    Option (Option MJ) :=
  match depPairs dep (dep.length + 1) pairs (ord dep) with
  | none => none
  | some dps =>
    let ps := pairs ++ dps
    if ps.isEmpty ∧ optEmpty info ∧ oe then some none
    else some (some (forceStr info (.dict [] (pairsDict ps))))

section
variable (ord : SMap Bytes → List (Bytes × Bytes)) (oe : Bool)
variable (deref : MSess → Option FInfo → Nat → Option (MSess × Option MJ))

mutual
/-- marshal.go:263-413 `marshalValue`.  `deref` marshals what is stored at an address. Outer `none` = does not end
(within the fuel); inner `none` = nil interface. -/
def GV.mar : GV → MSess → Option FInfo → Option (MSess × Option MJ)
  | .leaf l, s, info => some (s, (l.marshal info oe).map .json)
  | .jsonPtr j, s, _ =>
    -- marshal.go:269-287: a pointer pushed, marshalled without a search, and popped again: only the counter remains
    some ({ s with nodeIndex := s.nodeIndex + 1 }, some (.json j))
  | .seq xs, s, info =>
    -- marshal.go:37-61 marshalSlice
    if xs.isEmpty ∧ optEmpty info ∧ oe then some (s, none)
    else match GV.mars xs s with
      | none => none
      | some (s', ys) => some (s', some (forceStr info (.arr ys)))
  | .map kvs, s, info =>
    -- marshal.go:69-97 marshalMap
    if kvs.isEmpty ∧ optEmpty info ∧ oe then some (s, none)
    else match GV.marm kvs s with
      | none => none
      | some (s', ps) => some (s', some (forceStr info (.dict [] (pairsDict ps))))
  | .struct fs, s, info =>
    match GV.marf fs s with
    | none => none
    | some (s', pairs, dep) => match structDict ord oe info pairs dep with
      | none => none
      | some o => some (s', o)
  | .iface x, s, info => GV.mar x s info                       -- marshal.go:400-408
  | .ptr a, s, info => marshalPtr a s fun s1 => deref s1 info a
  | .shared a, s, info => deref s info a
/-- marshal.go:49-54. -/
def GV.mars : List GV → MSess → Option (MSess × List MJ)
  | [], s => some (s, [])
  | x :: xs, s => match GV.mar x s none with
    | none => none
    | some (s1, o) => match GV.mars xs s1 with
      | none => none
      | some (s2, ys) => some (s2, match o with | some y => y :: ys | none => ys)
/-- marshal.go:84-90. -/
def GV.marm : List (Bytes × GV) → MSess → Option (MSess × List (Bytes × MJ))
  | [], s => some (s, [])
  | (k, x) :: xs, s => match GV.mar x s none with
    | none => none
    | some (s1, o) => match GV.marm xs s1 with
      | none => none
      | some (s2, ys) => some (s2, match o with | some y => (k, y) :: ys | none => ys)
/-- marshal.go:122-136: the loop over the fields. Results: pairs and the map of deprecated keys. -/
def GV.marf : List (FInfo × GV) → MSess → Option (MSess × List (Bytes × MJ) × SMap Bytes)
  | [], s => some (s, [], [])
  | (i, x) :: xs, s =>
    if i.ignore then GV.marf xs s
    else match i.deprecatedBy with
      | some k => match GV.marf xs s with
        | none => none
        | some (s', ps, dep) => some (s', ps, match smGet dep i.name with
          | some _ => dep                        -- a later field with the same name overwrites the entry
          | none => smAdd dep i.name k)
      | none => match GV.mar x s (some i) with
        | none => none
        | some (s1, o) => match GV.marf xs s1 with
          | none => none
          | some (s2, ps, dep) => some (s2, (match o with | some y => (i.name, y) :: ps | none => ps), dep)
end
end

/-- `marshalValue` in memory `h`; fuel = nesting of dereferences. -/
def gmar (ord : SMap Bytes → List (Bytes × Bytes)) (oe : Bool) (h : List GV) : Nat → GV → MSess → Option FInfo → Option (MSess × Option MJ)
  | 0 => GV.mar ord oe fun _ _ _ => none
  | n + 1 => GV.mar ord oe fun s info a => match h[a]? with
    | none => none                               -- dangling: does not occur in Go
    | some v => gmar ord oe h n v s info

/-- marshal.go:246-261 `Marshal` (oe) and 415-430 `MarshalAll` (¬oe). `none` = does not end within the fuel. -/
def marshal (ord : SMap Bytes → List (Bytes × Bytes)) (pick : List Nat → Nat) (oe : Bool) (h : List GV) (fuel : Nat) (v : GV) : Option J :=
  match gmar ord oe h fuel v .init none with
  | none => none
  | some (_, none) => some .null
  | some (s, some m) => some (m.finish s.live pick)

end Jsonutils
