import Verif.Model.Unmarshal

/-!
# `Unmarshal` with memory: references `<n>`, pointers, backing arrays

`Model/Unmarshal` describes variables as trees and leaves references aside.  Here memory is explicit: a list of objects
(what `new`, `make` and variable declarations create); a pointer is a location, an object and a path of field and element
numbers into it, so that pointers into structs and arrays exist; slices and maps refer to an object of their own.  The
session of unmarshal_session.go is part of the state.  As in `Model/Unmarshal`: variables are settable, no type
implements `json.Unmarshaler` or has `AfterUnmarshal`; slices begin at the beginning of their backing array; embedded structs are
flattened.
-/

namespace Jsonutils

/-- A location: an object, and a path inside it. -/
structure Loc where
  base : Nat
  path : List Nat
  deriving DecidableEq, Repr

/-- A component of a variable. -/
def Loc.sub (l : Loc) (i : Nat) : Loc := ⟨l.base, l.path ++ [i]⟩

/-- Contents of a variable, or of an object. -/
inductive HV where
  | val (v : UV)                   -- nil, and values without variables inside: booleans, numbers, texts, documents, ...
  | ptr (l : Loc)
  | seq (base len : Nat)           -- slice: the object that is its backing array, and its length
  | map (base : Nat)               -- map: the object that holds its entries
  | arr (xs : List HV)             -- array; or backing array of a slice
  | struct (xs : List HV)
  | mapObj (kvs : List (Bytes × HV))   -- the entries of a map
  deriving Inhabited

/-- The component with number `i`. -/
def HV.child : HV → Nat → Option HV
  | .arr xs, i => xs[i]?
  | .struct xs, i => xs[i]?
  | _, _ => none                   -- (entries of a map are not addressable)

/-- The part of a value at a path. -/
def HV.at : HV → List Nat → Option HV
  | v, [] => some v
  | v, i :: p => match v.child i with
    | some c => c.at p
    | none => none

/-- Replace the component with number `i`. -/
def HV.setChild : HV → Nat → HV → HV
  | .arr xs, i, c => .arr (xs.set i c)
  | .struct xs, i, c => .struct (xs.set i c)
  | v, _, _ => v

/-- Replace the part of a value at a path. -/
def HV.put : HV → List Nat → HV → HV
  | _, [], w => w
  | v, i :: p, w => match v.child i with
    | some c => v.setChild i (c.put p w)
    | none => v

/-- unmarshal_session.go:21-25 `sJsonNodeValues`: the pointer saved for the node, as location and type of the variable
pointed to; the variables waiting for it. -/
structure HNode where
  node : Option (Loc × Ty)
  targets : List (Loc × Ty)

/-- Memory, and the session (unmarshal_session.go:27-29; a Go map, here a function with value `none` for absent keys). -/
structure UH where
  mem : List HV
  sess : Int → Option HNode

/-- Contents of a variable. -/
def memGet (M : List HV) (l : Loc) : Option HV := match M[l.base]? with
  | some o => o.at l.path
  | none => none

def UH.get (s : UH) (l : Loc) : Option HV := memGet s.mem l

/-- Assignment to a variable. -/
def memSet (M : List HV) (l : Loc) (v : HV) : List HV := match M[l.base]? with
  | some o => M.set l.base (o.put l.path v)
  | none => M

def UH.set (s : UH) (l : Loc) (v : HV) : UH := { s with mem := memSet s.mem l v }

/-- `new`, `make`: a new object. -/
def UH.new (s : UH) (v : HV) : Nat × UH := (s.mem.length, { s with mem := s.mem ++ [v] })

mutual
/-- Zero values hold their structs and arrays inside; everything else in them is nil or a scalar. -/
def UV.inline : UV → HV
  | .struct vs => .struct (UV.inlines vs)
  | .arr vs => .arr (UV.inlines vs)
  | v => .val v
def UV.inlines : List UV → List HV
  | [] => []
  | v :: vs => v.inline :: UV.inlines vs
end

/-- Zero value of a type, in memory. -/
def UEnv.hzero (P : UEnv) (t : Ty) : HV := (P.zero t).inline

/-- The pointer type `*t`.  (`*JSONDict` etc. are named apart.) -/
def Ty.ptrTo : Ty → Ty
  | .jval k => .jptr k
  | t => .ptr t

/-- Go's assignability of a pointer `*t` to a variable of type `u`: identical types, or an interface it implements. -/
def assignable (t u : Ty) : Bool :=
  t.ptrTo == u || u == .any || (u == .jobj && match t with | .jval _ => true | _ => false)

/-- `val.Set(p)` of reflect, for a pointer to the variable `p` of type `t` and a variable `l` of type `u`; `none` = panic. -/
def UH.setPtr (s : UH) (p : Loc × Ty) (v : Loc × Ty) : Option UH :=
  if assignable p.2 v.2 then some (s.set v.1 (.ptr p.1)) else none

/-- unmarshal_session.go:46-48: set all waiting variables. -/
def UH.setAll (p : Loc × Ty) : UH → List (Loc × Ty) → Option UH
  | s, [] => some s
  | s, v :: vs => match s.setPtr p v with
    | none => none
    | some s' => s'.setAll p vs

/-- Assignment in the Go map `objectMap`. -/
def UH.note (s : UH) (id : Int) (n : HNode) : UH := { s with sess := fun i => if i = id then some n else s.sess i }

/-- unmarshal_session.go:37-51 `saveNodeValue(nodeId, &x)`, for the variable `p`; `none` = panic. -/
def UH.save (s : UH) (id : Int) (p : Loc × Ty) : Option UH :=
  match s.sess id with
  | none => some (s.note id ⟨some p, []⟩)
  | some nv => match s.setAll p nv.targets with
    | none => none
    | some s' => some (s'.note id ⟨some p, []⟩)

/-- unmarshal_session.go:53-67 `setPointerValue(nodeId, v)`; `none` = panic. -/
def UH.refer (s : UH) (id : Int) (v : Loc × Ty) : Option UH :=
  match s.sess id with
  | some ⟨some p, _⟩ => s.setPtr p v
  | some ⟨none, ts⟩ => some (s.note id ⟨none, ts ++ [v]⟩)
  | none => some (s.note id ⟨none, [v]⟩)

/-- std_json.go:38-83 `indirectStdUnmarshaler`: nil pointers are replaced by pointers to zero values, all the way down. -/
def UEnv.halloc (P : UEnv) : Ty → Loc → UH → UH
  | .ptr t, l, s => match s.get l with
    | some (.ptr l') => P.halloc t l' s
    | _ => let (b, s1) := s.new (P.hzero t); P.halloc t ⟨b, []⟩ (s1.set l (.ptr ⟨b, []⟩))
  | .jptr k, l, s => match s.get l with
    | some (.val .nil) => s.set l (.val (.json k.zero))
    | _ => s
  | _, _, s => s

/-- Outcome: state and error; `none` = panic. -/
abbrev HRes := Option (UH × Option UErr)

/-- The contents of a variable without variables inside, as in `Model/Unmarshal`. -/
def HV.plainVal : HV → UV
  | .val v => v
  | _ => .nil

/-- Store the result of a conversion that looks at nothing but the variable itself. -/
def hstore (f : UV → URes) (l : Loc) (s : UH) : HRes :=
  match s.get l with
  | none => none                                   -- no such variable: does not occur
  | some c => match f c.plainVal with
    | none => none
    | some (v, none) => some (s.set l (.val v), none)
    | some (_, some e) => some (s, some e)

/-- unmarshal.go:83-293: numbers and booleans; `f` is `unmInt n`, `unmBool b` or `unmFloat P x bit`.  Pointers have been
allocated and are followed. -/
def hscalar (f : Ty → UV → URes) : Ty → Loc → UH → HRes
  | .ptr t, l, s => match s.get l with
    | some (.ptr l') => hscalar f t l' s
    | _ => none                                    -- does not occur
  | t, l, s => hstore (f t) l s

/-- Capacity: the length of the backing array. -/
def UH.cap (s : UH) (b : Nat) : Nat := match s.mem[b]? with
  | some (.arr xs) => xs.length
  | _ => 0

/-- unmarshal.go:302-430: texts. -/
def hstr (P : UEnv) (str : Bytes) : Ty → Loc → UH → HRes
  | .ptr t, l, s => match s.get l with
    | some (.ptr l') => hstr P str t l' s
    | _ => none                                    -- does not occur
  | .slice t, l, s =>
    -- unmarshal.go:417-425: the slice becomes one element long; the text goes into that element
    match s.get l with
    | some (.seq b _) =>
      if s.cap b < 1 then
        let (b', s1) := s.new (.arr [P.hzero t])
        let s2 := s1.set l (.seq b' 1)
        hstr P str t ⟨b', [0]⟩ (P.halloc t ⟨b', [0]⟩ s2)
      else
        let s1 := s.set l (.seq b 1)
        hstr P str t ⟨b, [0]⟩ (P.halloc t ⟨b, [0]⟩ s1)
    | _ =>
      let (b', s1) := s.new (.arr [P.hzero t])
      let s2 := s1.set l (.seq b' 1)
      hstr P str t ⟨b', [0]⟩ (P.halloc t ⟨b', [0]⟩ s2)
  | t, l, s => hstore (unmStr P str t) l s

/-- unmarshal.go:454-462: make the slice variable at `l` `n` elements long; the object that is its backing array then. -/
def UEnv.hresize (P : UEnv) (t : Ty) (n : Nat) (l : Loc) (s : UH) : Nat × UH :=
  let fresh := let (b, s1) := s.new (.arr (List.replicate n (P.hzero t))); (b, s1.set l (.seq b n))
  match s.get l with
  | some (.seq b _) => if s.cap b < n then fresh else (b, s.set l (.seq b n))
  | _ => fresh

/-- unmarshal.go:432-476 `JSONArray._unmarshalValue` of the array `xs`, but for the pointer case; `elems` unmarshals the
elements into the components of a location, from number 0 on. -/
def harr (P : UEnv) (xs : List J) (elems : Ty → Loc → UH → HRes) (t : Ty) (l : Loc) (s : UH) : HRes :=
  match t with
  | .slice t' => let (b, s1) := P.hresize t' xs.length l s; elems t' ⟨b, []⟩ s1
  | .array n t' => if n ≠ xs.length then some (s, some .arrayLen) else elems t' l s
  | t => hstore (arrInto P xs (fun _ _ => none) t) l s

/-- unmarshal.go:597-612: the loop over the fields matching a key.  `assign` is `v.unmarshalValue` on a field. -/
def hsetLoop (tys : List (FInfo × Ty)) (l : Loc) (assign : Ty → Loc → UH → HRes)
    (again : Bytes → List Bytes → UH → Option (UH × List Bytes × Option UErr)) :
    List Nat → List Bytes → UH → Option (UH × List Bytes × Option UErr)
  | [], vis, s => some (s, vis, none)
  | i :: is, vis, s => match tys[i]? with
    | none => none                                 -- no such field: does not occur
    | some (info, t) => match assign t (l.sub i) s with
      | none => none
      | some (s1, some e) => some (s1, vis, some e)
      | some (s1, none) => match info.deprecatedBy with
        | none => hsetLoop tys l assign again is vis s1
        | some k => match again k vis s1 with
          | none => none
          | some (s2, vis2, some e) => some (s2, vis2, some e)
          | some (s2, vis2, none) => hsetLoop tys l assign again is vis2 s2

/-- unmarshal.go:577-614 `setStructFieldAt`, for the struct at `l`. -/
def hsetKey (idx : Bytes → List Nat) (tys : List (FInfo × Ty)) (l : Loc) (assign : Ty → Loc → UH → HRes) :
    Nat → Bytes → List Bytes → UH → Option (UH × List Bytes × Option UErr)
  | 0, _, _, _ => none
  | f + 1, key, vis, s =>
    if key ∈ vis then some (s, vis, none)
    else hsetLoop tys l assign (hsetKey idx tys l assign f) (idx key) (key :: vis) s

/-- unmarshal.go:544-547: a nil map is replaced by an empty one. -/
def UH.makeMap (s : UH) (l : Loc) : UH := match s.get l with
  | some (.map _) => s
  | _ => let (b, s1) := s.new (.mapObj []); s1.set l (.map b)

/-- unmarshal.go:570 `val.SetMapIndex(k, x)`: the contents of the variable `x` are copied into the map. -/
def UH.setMapIndex (s : UH) (l : Loc) (k : Bytes) (x : Loc) : Option UH :=
  match s.get l, s.get x with
  | some (.map b), some c => match s.mem[b]? with
    | some (.mapObj kvs) => some { s with mem := s.mem.set b (.mapObj (smAdd kvs k c)) }
    | _ => none                                    -- does not occur
  | _, _ => none                                   -- does not occur

/-- unmarshal.go:484-541 `JSONDict._unmarshalValue`, but for the pointer case. -/
def hdict (nodeId : Int) (kvs : SMap J) (entries : Ty → Loc → UH → HRes)
    (fields : Nat → Loc → UH → Option (UH × List UErr)) (t : Ty) (l : Loc) (s : UH) : HRes :=
  match t with
  | .map t' => entries t' l (s.makeMap l)
  | .mapOther _ => some (s.makeMap l, some .mapKey)
  | .struct n => match fields n l s with
    | none => none
    | some (s1, es) => some (s1, if es.isEmpty then none else some (.agg es))
  | t => hstore (dictInto nodeId kvs (fun _ _ => none) (fun _ _ => none) t) l s

/-- unmarshal.go:478-482: a dictionary with a node id saves the address of the variable. -/
def UH.saveNode (s : UH) (id : Int) (p : Loc × Ty) : Option UH := if 0 < id then s.save id p else some s

mutual
/-- `v.unmarshalValue(s, val)`: jsonpointer.go:75-77, unmarshal.go:71-77 (null), and the methods above behind
`tryStdUnmarshal` (std_json.go:25-31), on the variable at `l` of type `t`. -/
def J.hunm (P : UEnv) : J → Ty → Loc → UH → HRes
  | .null, t, l, s => some (s.set l (P.hzero t), none)
  | .ptr id, t, l, s => (s.refer id (l, t)).map fun s' => (s', none)
  | .int n, t, l, s => hscalar (unmInt n) t l (P.halloc t l s)
  | .bool b, t, l, s => hscalar (unmBool b) t l (P.halloc t l s)
  | .float x bit, t, l, s => hscalar (unmFloat P x bit) t l (P.halloc t l s)
  | .str x, t, l, s => hstr P x t l (P.halloc t l s)
  | .arr xs, t, l, s =>
    let s1 := P.halloc t l s
    match t with
    | .ptr t' =>
      -- unmarshal.go:446-454
      if t'.isSeq then match s1.get l with
        | some (.ptr l') => harr P xs (fun t l s => J.hunms P xs t l 0 s) t' l' s1
        | _ => none                                -- does not occur
      else some (s1, some .mismatch)
    | t => harr P xs (fun t l s => J.hunms P xs t l 0 s) t l s1
  | .dict id kvs, t, l, s =>
    match s.saveNode id (l, t) with
    | none => none
    | some s0 =>
      let s1 := P.halloc t l s0
      match t with
      | .ptr t' =>
        -- unmarshal.go:526-540: unmarshalValue again, on the variable pointed to
        if t'.isStructOrMap then match s1.get l with
          | some (.ptr l') => match s1.saveNode id (l', t') with
            | none => none
            | some s2 => hdict id kvs (fun t l s => J.hunmm P kvs t l s) (fun n l s => J.hunmf P kvs n l s) t' l' s2
          | _ => none                              -- does not occur
        else some (s1, some .mismatch)
      | t => hdict id kvs (fun t l s => J.hunmm P kvs t l s) (fun n l s => J.hunmf P kvs n l s) t l s1
/-- unmarshal.go:465-470: the elements into the components of `l`, from number `i` on, until one fails. -/
def J.hunms (P : UEnv) : List J → Ty → Loc → Nat → UH → HRes
  | [], _, _, _, s => some (s, none)
  | j :: js, t, l, i, s => match J.hunm P j t (l.sub i) s with
    | none => none
    | some (s1, some e) => some (s1, some e)
    | some (s1, none) => J.hunms P js t l (i + 1) s1
/-- unmarshal.go:555-573: the entries of a map, each by way of a new variable, until one fails. -/
def J.hunmm (P : UEnv) : List (Bytes × J) → Ty → Loc → UH → HRes
  | [], _, _, s => some (s, none)
  | (k, j) :: r, t, l, s =>
    let (b, s1) := s.new (P.hzero t)
    match J.hunm P j t ⟨b, []⟩ s1 with
    | none => none
    | some (s2, some e) => some (s2, some e)
    | some (s2, none) => match s2.setMapIndex l k ⟨b, []⟩ with
      | none => none
      | some s3 => J.hunmm P r t l s3
/-- unmarshal.go:620-628: the keys of a struct; errors are collected. -/
def J.hunmf (P : UEnv) : List (Bytes × J) → Nat → Loc → UH → Option (UH × List UErr)
  | [], _, _, s => some (s, [])
  | (k, j) :: r, n, l, s =>
    match hsetKey (P.idx n) (P.defs.getD n []) l (fun t l s => J.hunm P j t l s) ((P.defs.getD n []).length + 2) k [] s with
    | none => none
    | some (s1, _, e) => match J.hunmf P r n l s1 with
      | none => none
      | some (s2, es) => some (s2, match e with | some e => e :: es | none => es)
end

/-- unmarshal.go:40-69 `v.Unmarshal(&x, keys...)` in memory `M`, for the variable `x` at `l` of type `t`: memory afterwards
and error.  See `J.unmarshal` for numbers, booleans and references at the root. -/
def J.hunmarshal (P : UEnv) (v : J) (keys : List Bytes) (t : Ty) (l : Loc) (M : List HV) : Option (List HV × Option UErr) :=
  let s : UH := ⟨M, fun _ => none⟩
  let run (j : J) := (j.hunm P t l s).map fun r => (r.1.mem, r.2)
  match keys with
  | [] => match v with
    | .str _ => run v
    | .arr _ => run v
    | .dict _ _ => run v
    | _ => some ((s.set l (P.hzero t)).mem, none)
  | _ => match v.get keys with
    | .ok c => run c
    | .err _ => some (M, some .get)
    | _ => none

end Jsonutils
