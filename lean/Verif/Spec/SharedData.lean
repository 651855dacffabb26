import Verif.Model.SharedData
import Verif.Spec.HeapEdit
import Verif.Spec.Unmarshal

/-!
# Vocabulary for variables that share memory with documents
-/

namespace Jsonutils

/-- The content of a plain variable. -/
def UV.IsPlain : UV → Prop
  | .bool _ => True
  | .int _ => True
  | .float _ => True
  | .str _ => True
  | _ => False

mutual
/-- The variable content `x`, read in memory `h`, is the value `u`: a pointer to a JSON object is read as the document it spells. -/
def DV.Is (h : Heap) : DV → UV → Prop
  | .nil, u => u = .nil
  | .sc x, u => u = x ∧ x.IsPlain
  | .ref a, u => ∃ j : J, u = .json j ∧ j.Seen h a
  | .seq xs sp, u => ∃ us ss, u = .seq us ss ∧ DV.Iss h xs us ∧ DV.Iss h sp ss
  | .map kvs, u => ∃ m, u = .map m ∧ DV.Ism h kvs m
  | .ptr x, u => ∃ w, u = .ptr w ∧ x.Is h w
  | .struct fs, u => ∃ us, u = .struct us ∧ DV.Iss h fs us
def DV.Iss (h : Heap) : List DV → List UV → Prop
  | [], us => us = []
  | x :: xs, us => ∃ u r, us = u :: r ∧ x.Is h u ∧ DV.Iss h xs r
def DV.Ism (h : Heap) : List (Bytes × DV) → List (Bytes × UV) → Prop
  | [], us => us = []
  | (k, x) :: xs, us => ∃ u r, us = (k, u) :: r ∧ x.Is h u ∧ DV.Ism h xs r
end

/-- `x.Spot D t p t' y`: in the variable of type `t` with content `x`, the place where position `p` of a document goes is a variable of type
`t'` with content `y`. -/
inductive DV.Spot (D : DEnv) : DTy → DV → List Move → DTy → DV → Prop where
  | here (t : DTy) (x : DV) : Spot D t x [] t x
  | ptr {t t' : DTy} {x y : DV} {p : List Move} : Spot D t x p t' y → Spot D (.ptr t) (.ptr x) p t' y
  | elem {t t' : DTy} {xs sp : List DV} {i : Nat} {x y : DV} {p : List Move} : xs[i]? = some x → Spot D t x p t' y →
      Spot D (.slice t) (.seq xs sp) (.elem i :: p) t' y
  | entry {t t' : DTy} {m : SMap DV} {k : Bytes} {x y : DV} {p : List Move} : (k, x) ∈ m → Spot D t x p t' y →
      Spot D (.map t) (.map m) (.key k :: p) t' y
  | field {n i : Nat} {fs : List DV} {tys : List (FInfo × DTy)} {info : FInfo} {k : Bytes} {t t' : DTy} {x y : DV} {p : List Move} :
      i ∈ D.idx n k → D.defs[n]? = some tys → tys[i]? = some (info, t) → fs[i]? = some x → Spot D t x p t' y →
      Spot D (.struct n) (.struct fs) (.key k :: p) t' y

/-- The type has a place of type `t'` for position `p` of a document. -/
inductive DTy.Route (D : DEnv) : DTy → List Move → DTy → Prop where
  | here (t : DTy) : Route D t [] t
  | ptr {t t' : DTy} {p : List Move} : Route D t p t' → Route D (.ptr t) p t'
  | elem {t t' : DTy} {i : Nat} {p : List Move} : Route D t p t' → Route D (.slice t) (.elem i :: p) t'
  | entry {t t' : DTy} {k : Bytes} {p : List Move} : Route D t p t' → Route D (.map t) (.key k :: p) t'
  | field {n i : Nat} {tys : List (FInfo × DTy)} {info : FInfo} {k : Bytes} {t t' : DTy} {p : List Move} :
      i ∈ D.idx n k → D.defs[n]? = some tys → tys[i]? = some (info, t) → Route D t p t' → Route D (.struct n) (.key k :: p) t'

/-- The variable of type `t` with content `x` consists of, among others, a variable of type `t'` with content `y`.  (The entries of a map
are not variables of their own: they are replaced, not changed.) -/
inductive DV.Var (D : DEnv) : DTy → DV → DTy → DV → Prop where
  | here (t : DTy) (x : DV) : Var D t x t x
  | ptr {t t' : DTy} {x y : DV} : Var D t x t' y → Var D (.ptr t) (.ptr x) t' y
  | elem {t t' : DTy} {xs sp : List DV} {x y : DV} : x ∈ xs ++ sp → Var D t x t' y → Var D (.slice t) (.seq xs sp) t' y
  | field {n i : Nat} {fs : List DV} {tys : List (FInfo × DTy)} {info : FInfo} {t t' : DTy} {x y : DV} :
      D.defs[n]? = some tys → tys[i]? = some (info, t) → fs[i]? = some x → Var D t x t' y → Var D (.struct n) (.struct fs) t' y

/-- The kinds of objects that a conversion may write into: `*JSONString`, `*JSONInt`, `*JSONBool`. -/
def JKind.Soft : JKind → Prop
  | .str => True
  | .int => True
  | .bool => True
  | _ => False

/-- No `*JSONString`, `*JSONInt`, `*JSONBool` in the variable points to an object.  (Other variables may hold anything.) -/
def DV.Blank (D : DEnv) (t : DTy) (x : DV) : Prop := ∀ k b, x.Var D t (.jptr k) (.ref b) → ¬ k.Soft

/-- The kind of a JSON object. -/
def Obj.IsKind : Obj → JKind → Prop
  | .dict _ _, k => k = .dict
  | .arr _, k => k = .arr
  | .str _, k => k = .str
  | .int _, k => k = .int
  | .float _ _, k => k = .float
  | .bool _, k => k = .bool
  | _, _ => False

/-- The content `y` of a variable of type `t` that has received the object `o` at `b`: nil for null; in a `JSONObject` variable, and in a
`*JSONxxx` variable of that very type, a pointer to the object itself; in a `*JSONxxx` variable of another type a pointer to an object that
was not in the memory `h`. -/
def Handed (h : Heap) (b : Addr) (o : Obj) (t : DTy) (y : DV) : Prop :=
  (t = .obj → (o = .null → y = .nil) ∧ (o ≠ .null → y = .ref b)) ∧
  (∀ k, t = .jptr k → (o = .null → y = .nil) ∧ (o.IsKind k → y = .ref b) ∧ (o ≠ .null → ¬ o.IsKind k → ∃ c, y = .ref c ∧ h.length ≤ c))

/-- The variable of type `t` with content `x` shares the document at `a`: the places of type `JSONObject` or `*JSONxxx` hold the objects of
the document, and where the types lead to such a place and the document is not null there, that place exists. -/
structure Shares (D : DEnv) (h : Heap) (a : Addr) (t : DTy) (x : DV) : Prop where
  held : ∀ p b o t' y, Way h a p b → h[b]? = some o → x.Spot D t p t' y → Handed h b o t' y
  there : ∀ p b o t', Way h a p b → h[b]? = some o → o ≠ .null → t.Route D p t' → (t' = .obj ∨ ∃ k, t' = .jptr k) → ∃ y, x.Spot D t p t' y

/-- A variable of type `t` may have, among others, variables of type `t'` in it.  (As `DV.Var`; so not the entries of maps.) -/
inductive DTy.Part (D : DEnv) : DTy → DTy → Prop where
  | here (t : DTy) : Part D t t
  | ptr {t t' : DTy} : Part D t t' → Part D (.ptr t) t'
  | elem {t t' : DTy} : Part D t t' → Part D (.slice t) t'
  | field {n : Nat} {tys : List (FInfo × DTy)} {info : FInfo} {t t' : DTy} : D.defs[n]? = some tys → (info, t) ∈ tys → Part D t t' → Part D (.struct n) t'

/-- No variable of type `t` has a `*JSONString`, `*JSONInt`, `*JSONBool` in it. -/
def DTy.Firm (D : DEnv) (t : DTy) : Prop := ∀ k, t.Part D (.jptr k) → ¬ k.Soft

mutual
/-- The keys of every dictionary in the document are plain (`PlainKeys`) for every struct type that has a `*JSONString`, `*JSONInt`,
`*JSONBool` in it. -/
def J.OrderlyFor (D : DEnv) : J → Prop
  | .arr xs => J.OrderlyFors D xs
  | .dict _ kvs => (∀ n fs, D.env.defs[n]? = some fs → PlainKeys (D.env.idx n) fs kvs ∨ (DTy.struct n).Firm D) ∧ J.OrderlyForf D kvs
  | _ => True
def J.OrderlyFors (D : DEnv) : List J → Prop
  | [] => True
  | x :: xs => x.OrderlyFor D ∧ J.OrderlyFors D xs
def J.OrderlyForf (D : DEnv) : List (Bytes × J) → Prop
  | [] => True
  | (_, x) :: xs => x.OrderlyFor D ∧ J.OrderlyForf D xs
end

/-- The variable content holds a pointer to the object at `b`. -/
inductive DV.Has : DV → Addr → Prop where
  | ref (b : Addr) : Has (.ref b) b
  | elem {xs sp : List DV} {x : DV} {b : Addr} : x ∈ xs ++ sp → Has x b → Has (.seq xs sp) b
  | entry {m : List (Bytes × DV)} {k : Bytes} {x : DV} {b : Addr} : (k, x) ∈ m → Has x b → Has (.map m) b
  | ptr {x : DV} {b : Addr} : Has x b → Has (.ptr x) b
  | field {fs : List DV} {x : DV} {b : Addr} : x ∈ fs → Has x b → Has (.struct fs) b

/-- What the object behind a `*JSONString`, `*JSONInt`, `*JSONBool` variable becomes when a scalar of another kind is unmarshalled into the
variable: a text of the number or boolean, the integer part of the float, whether the text is one of the words for true. -/
def Turned (trunc : GoFloat → Int) : J → JKind → Option J
  | .int n, .str => some (.str (J.int n).toBytes)
  | .bool b, .str => some (.str (J.bool b).toBytes)
  | .float x _, .str => some (.str (sprintfF x))
  | .float x _, .int => some (.int (trunc x))
  | .str s, .bool => some (.bool (isTrueWord s))
  | _, _ => none

/-- A dictionary, array or text.  (`Unmarshal` called on any other object, without keys, takes it for null.) -/
def J.IsNode : J → Prop
  | .dict _ _ => True
  | .arr _ => True
  | .str _ => True
  | _ => False

/-- The address of `JSONTrue`. -/
def trueAddr : Addr := 1

end Jsonutils
