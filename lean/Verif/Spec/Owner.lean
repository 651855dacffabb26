import Verif.Spec.HeapOrder
import Verif.Spec.Dict
import Verif.Model.HeapDict
import Verif.Model.HeapAccess

/-!
# Client programs, run on memory and run on values

A client program works on variables that hold documents.  The memory machine runs it on objects with the functions of `Model/Heap` and
`Model/HeapRead`; the value machine runs it on plain documents (`J`), where an assignment copies and nothing is ever shared, with the
functions of `Model/Access` and `Model/Dict`.  A document that is put into another one is given away: its variable is empty afterwards.
-/

namespace Jsonutils

/-- Variables and what they hold. -/
abbrev Env (α : Type) := Nat → Option α

/-- The variable `x` set to `o`. -/
def Env.put {α} (e : Env α) (x : Nat) (o : Option α) : Env α := fun y => if y = x then o else e y

/-- What a statement reports. -/
inductive Out where
  | skipped                                    -- a variable is empty, a position does not exist, an object is of another kind
  | done
  | flag (b : Bool)
  | added (e : Option AErr)
  | text (s : Bytes)
  | failed (e : AErr)                          -- the call returned an error
  | number (n : Nat)
  deriving DecidableEq

/-- A call `receiver.Method(..., operand)` that puts the operand into the receiver. -/
inductive Act where
  | set (k : Bytes)                            -- JSONDict.Set
  | setAt (i : Int)                            -- JSONArray.SetAt
  | append                                     -- JSONArray.Add
  | add (path : List Bytes)                    -- JSONDict.Add
  | update                                     -- JSONDict.Update
  | updateDefault                              -- JSONDict.UpdateDefault

/-- Questions to a document. -/
inductive Ask where
  | string (keys : List Bytes)                 -- GetString(keys...)
  | contains (keys : List Bytes)               -- Contains(keys...)
  | isZero                                     -- IsZero()
  | length                                     -- Length(), Size()
  | query                                      -- QueryString()

/-- Statements.  `x` and `p` name the receiver: the object at position `p` of the document in variable `x`. -/
inductive Stmt where
  | doc (x : Nat) (v : J)                      -- x = NewDict(), NewArray(), NewString(..), NewInt(..), ..., or a whole document from Parse
  | act (a : Act) (x : Nat) (p : List Move) (y : Nat)
  | remove (x : Nat) (p : List Move) (k : Bytes)
  | take (z x : Nat) (p : List Move) (k : Bytes)  -- z = receiver.Get(k); receiver.Remove(k)
  | clone (z x : Nat) (p : List Move)          -- z = DeepCopy(receiver)
  | text (x : Nat) (p : List Move)             -- print receiver.String()
  | pretty (x : Nat) (p : List Move)           -- print receiver.PrettyString()
  | equal (x : Nat) (p : List Move) (y : Nat) (q : List Move)   -- print receiver.Equals(other)
  | ask (q : Ask) (x : Nat) (p : List Move)

/-! ### On values -/

/-- The document at a position: `Get(k)`, `GetAt(i)` one after the other. -/
def J.pick : J → List Move → Option J
  | v, [] => some v
  | v, .key k :: p => match v.get [k] with
    | .ok w => w.pick p
    | _ => none
  | v, .elem i :: p => match v.getAt i [] with
    | .ok w => w.pick p
    | _ => none

/-- The document with `w` at the position instead of what is there. -/
def J.putAt (w : J) : List Move → J → J
  | [], _ => w
  | .key k :: p, .dict id kvs => match smGet kvs k with
    | some x => .dict id (smAdd kvs k (J.putAt w p x))
    | none => .dict id kvs
  | .elem i :: p, .arr xs => match xs[i]? with
    | some x => .arr (xs.set i (J.putAt w p x))
    | none => .arr xs
  | _, v => v

/-- The call on documents: what it reports and what the receiver is then; `none` if the receiver is of another kind or the index is out of
range. -/
def Act.onValue : Act → J → J → Option (Out × J)
  | .set k, .dict id kvs, w => some (.done, .dict id (smAdd kvs k w))
  | .setAt i, .arr xs, w => (arrSetAt xs i w).map fun ys => (.done, .arr ys)
  | .append, .arr xs, w => some (.done, .arr (arrAdd xs [w]))
  | .add path, .dict id kvs, w => let r := dictAdd kvs w path; some (.added r.2, .dict id r.1)
  | .update, .dict id kvs, w => some (.done, .dict id (dictUpdate kvs w))
  | .updateDefault, .dict id kvs, w => some (.done, .dict id (dictUpdateDefault kvs w))
  | _, _, _ => none

/-- The answer of a document; `skipped` for a kind without the method. -/
def Ask.onValue (u : J) : Ask → Out
  | .string keys => match u.getString keys with
    | .ok s => .text s
    | .err e => .failed e
    | .diverge => .skipped
  | .contains keys => .flag (u.contains keys)
  | .isZero => .flag u.isZero
  | .length => match u.length? with
    | some n => .number n
    | none => .skipped
  | .query => .text u.queryString

/-- The document at position `p` of variable `x`. -/
def Env.at (e : Env J) (x : Nat) (p : List Move) : Option J := (e x).bind fun v => v.pick p

/-- One statement on values. -/
def Stmt.onValue (e : Env J) : Stmt → Env J × Out
  | .doc x v => (e.put x (some v), .done)
  | .act a x p y =>
    if x = y then (e, .skipped)
    else match e x, e.at x p, e y with
      | some v, some u, some w => match a.onValue u w with
        | some (o, u') => ((e.put y none).put x (some (J.putAt u' p v)), o)
        | none => (e, .skipped)
      | _, _, _ => (e, .skipped)
  | .remove x p k => match e x, e.at x p with
    | some v, some (.dict id kvs) => let r := dictRemove kvs k; (e.put x (some (J.putAt (.dict id r.1) p v)), .flag r.2)
    | _, _ => (e, .skipped)
  | .take z x p k => match e x, e.at x p, e.at x (p ++ [.key k]) with
    | some v, some (.dict id kvs), some w => ((e.put x (some (J.putAt (.dict id (dictRemove kvs k).1) p v))).put z (some w), .done)
    | _, _, _ => (e, .skipped)
  | .clone z x p => match e.at x p with
    | some u => (e.put z (some u.dropIds), .done)
    | none => (e, .skipped)
  | .text x p => match e.at x p with
    | some u => (e, .text u.toBytes)
    | none => (e, .skipped)
  | .pretty x p => match e.at x p with
    | some u => (e, .text u.prettyString)
    | none => (e, .skipped)
  | .equal x p y q => match e.at x p, e.at y q with
    | some u, some w => (e, .flag (u.equals w))
    | _, _ => (e, .skipped)
  | .ask q x p => match e.at x p with
    | some u => (e, q.onValue u)
    | none => (e, .skipped)

/-- A program on values: the variables at the end and all reports. -/
def runValues : Env J → List Stmt → Env J × List Out
  | e, [] => (e, [])
  | e, s :: ss => let r := s.onValue e; let t := runValues r.1 ss; (t.1, r.2 :: t.2)

/-! ### On memory -/

mutual
/-- The document as the constructors and the parser make it: access.go:32-75, jsonutils.go:256-297, 424-565, 616-622: a new object for everything but null,
true and false, which are the shared instances. -/
def J.build : J → Heap → Addr × Heap
  | .null, h => (nullAddr, h)
  | .bool true, h => (1, h)
  | .bool false, h => (2, h)
  | .int n, h => h.alloc (.int n)
  | .float x bit, h => h.alloc (.float x bit)
  | .str s, h => h.alloc (.str s)
  | .ptr id, h => h.alloc (.ptr id)
  | .arr xs, h => let r := J.builds xs h; r.2.alloc (.arr r.1)
  | .dict id kvs, h => let r := J.buildf kvs h; r.2.alloc (.dict id r.1)
def J.builds : List J → Heap → List Ref × Heap
  | [], h => ([], h)
  | x :: xs, h => let r := x.build h; let t := J.builds xs r.2; (some r.1 :: t.1, t.2)
def J.buildf : List (Bytes × J) → Heap → SMap Ref × Heap
  | [], h => ([], h)
  | (k, x) :: xs, h => let r := x.build h; let t := J.buildf xs r.2; ((k, some r.1) :: t.1, t.2)
end

/-- The object at a position, by `Get(k)` and `GetAt(i)` one after the other. -/
def pickH (h : Heap) : Addr → List Move → Option Addr
  | a, [] => some a
  | a, .key k :: p => match getH h (some a) [k] with
    | .ok (some b) => pickH h b p
    | _ => none
  | a, .elem i :: p => match getAtH h (some a) i [] with
    | .ok (some b) => pickH h b p
    | _ => none

/-- The call on objects; `none` if the receiver is of another kind or the index is out of range. -/
def Act.onMemory (h : Heap) (d o : Addr) : Act → Option (Out × Heap)
  | .set k => (setH h d k (some o)).map fun h' => (.done, h')
  | .setAt i => (setAtH h d i (some o)).map fun h' => (.done, h')
  | .append => (arrAddH h d [some o]).map fun h' => (.done, h')
  | .add path => match h[d]? with
    | some (.dict _ _) => (addH h d (some o) path).map fun r => (.added r.1, r.2)
    | _ => none
  | .update => (updateH h d o).map fun h' => (.done, h')
  | .updateDefault => (updateDefaultH h d o).map fun h' => (.done, h')

/-- The answer of an object. -/
def Ask.onMemory (f : Nat) (h : Heap) (a : Addr) : Ask → CRes Out
  | .string keys => match getStringH f h (some a) keys with
    | .ok s => .ok (.text s)
    | .err e => .ok (.failed e)
    | .panic => .panic
    | .fuel => .fuel
  | .contains keys => match containsH h (some a) keys with
    | .ok b => .ok (.flag b)
    | .err e => .ok (.failed e)
    | .panic => .panic
  | .isZero => match isZeroH h (some a) with
    | .ok b => .ok (.flag b)
    | .err e => .ok (.failed e)
    | .panic => .panic
  | .length => match lengthH h a with
    | some n => .ok (.number n)
    | none => .ok .skipped
  | .query => (queryStringH f h (some a)).map .text

/-- The object at position `p` of variable `x`. -/
def objAt (h : Heap) (e : Env Addr) (x : Nat) (p : List Move) : Option Addr := (e x).bind fun a => pickH h a p

/-- One statement on memory; `ord` is the iteration order of Go maps, `f` the fuel of the recursive functions. -/
def Stmt.onMemory (ord : SMap Ref → SMap Ref) (f : Nat) (h : Heap) (e : Env Addr) : Stmt → CRes ((Heap × Env Addr) × Out)
  | .doc x v => let r := v.build h; .ok ((r.2, e.put x (some r.1)), .done)
  | .act a x p y =>
    if x = y then .ok ((h, e), .skipped)
    else match objAt h e x p, e y with
      | some d, some o => match a.onMemory h d o with
        | some (out, h') => .ok ((h', e.put y none), out)
        | none => .ok ((h, e), .skipped)
      | _, _ => .ok ((h, e), .skipped)
  | .remove x p k => match objAt h e x p with
    | some d => match removeH h d k with
      | some (b, h') => .ok ((h', e), .flag b)
      | none => .ok ((h, e), .skipped)
    | none => .ok ((h, e), .skipped)
  | .take z x p k => match objAt h e x p, objAt h e x (p ++ [.key k]) with
    | some d, some b => match removeH h d k with
      | some (_, h') => .ok ((h', e.put z (some b)), .done)
      | none => .ok ((h, e), .skipped)
    | _, _ => .ok ((h, e), .skipped)
  | .clone z x p => match objAt h e x p with
    | some d => match deepCopyH ord f h (some d) with
      | .ok (r, h') => .ok ((h', e.put z r), .done)
      | .panic => .panic
      | .fuel => .fuel
    | none => .ok ((h, e), .skipped)
  | .text x p => match objAt h e x p with
    | some d => (textH f h (some d)).map fun s => ((h, e), .text s)
    | none => .ok ((h, e), .skipped)
  | .pretty x p => match objAt h e x p with
    | some d => (prettyH f h 0 (some d)).map fun s => ((h, e), .text s)
    | none => .ok ((h, e), .skipped)
  | .equal x p y q => match objAt h e x p, objAt h e y q with
    | some d, some d' => (equalsH f h (some d) (some d')).map fun b => ((h, e), .flag b)
    | _, _ => .ok ((h, e), .skipped)
  | .ask q x p => match objAt h e x p with
    | some d => (q.onMemory f h d).map fun o => ((h, e), o)
    | none => .ok ((h, e), .skipped)

/-- A program on memory: memory and variables at the end, and all reports. -/
def runMemory (ord : SMap Ref → SMap Ref) (f : Nat) : Heap → Env Addr → List Stmt → CRes ((Heap × Env Addr) × List Out)
  | h, e, [] => .ok ((h, e), [])
  | h, e, s :: ss => match s.onMemory ord f h e with
    | .ok (r, o) => (runMemory ord f r.1 r.2 ss).map fun t => (t.1, o :: t.2)
    | .panic => .panic
    | .fuel => .fuel

/-! ### Which programs -/

/-- The documents written in the program are as the constructors and the parser make them (keys sorted, numbers in range), without
reference pointers. -/
def Stmt.Fine : Stmt → Prop
  | .doc _ v => v.WF ∧ v.NoPtr
  | _ => True

/-- The statement is no `DeepCopy`. -/
def Stmt.NoClone : Stmt → Prop
  | .clone _ _ _ => False
  | _ => True

/-- If the statement is an `Add`, its path does not lead through a null (`Add` replaces the shared null by a dictionary, and takes a null
that `DeepCopy` made for an obstacle). -/
def Stmt.AvoidsNull (e : Env J) : Stmt → Prop
  | .act (.add path) x p _ => ∀ q r, path = q ++ r → r ≠ [] → e.at x (p ++ q.map .key) ≠ some .null
  | _ => True

/-- Every statement of the program satisfies `Q` with the variables it is executed with. -/
def Throughout (Q : Env J → Stmt → Prop) : Env J → List Stmt → Prop
  | _, [] => True
  | e, s :: ss => Q e s ∧ Throughout Q (s.onValue e).1 ss

/-- The variables hold the same documents in both machines. -/
def SameDocs (h : Heap) (eH : Env Addr) (e : Env J) : Prop :=
  ∀ x, match e x, eH x with
    | some v, some a => J.Seen h v a
    | none, none => True
    | _, _ => False

end Jsonutils
