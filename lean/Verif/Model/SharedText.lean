import Verif.Model.Heap

/-!
# `String()` on shared documents under concurrent callers: string.go:23-60, write.go:24-81

Any number of goroutines call `String()` on documents in one memory.  `String()` is not read-only: `JSONFloat.String` writes the
width field (string.go:36-38).  A goroutine is what it has written into its own builder and what it still has to do; each step below
is one visit of an object, one write into the builder, or one read or write of a float's width.
Simplifications as in `Model/FloatRace`: reads and writes of a machine word are atomic and sequentially consistent; nobody calls a
mutating method at the same time.
-/

namespace Jsonutils

/-- What a goroutine has to do next. -/
inductive Todo where
  | text (b : Bytes)      -- sb.WriteString(b)
  | node (r : Ref)        -- v.buildString(sb), v a JSONObject variable
  | second (a : Addr)     -- string.go:36: found `bit != 32`, about to read `this.bit != 64`
  | store (a : Addr)      -- string.go:37: about to write `this.bit = 64`
  | format (a : Addr)     -- string.go:39: about to read `this.bit` for FormatFloat
  deriving DecidableEq, Repr

/-- A goroutine inside `String()`: the content of its builder, and the rest of its work. -/
structure Writer where
  out : Bytes
  todo : List Todo
  deriving DecidableEq, Repr

/-- write.go:72-81: the elements of an array with separating commas. -/
def arrTodo : List Ref → Bool → List Todo
  | [], _ => []
  | x :: xs, first => .text (if first then [] else [44]) :: .node x :: arrTodo xs false

/-- write.go:57-68: the entries of a dictionary with separating commas. -/
def dictTodo : SMap Ref → Bool → List Todo
  | [], _ => []
  | (k, x) :: kvs, first => .text ((if first then [] else [44]) ++ quoteString k ++ [58]) :: .node x :: dictTodo kvs false

/-- The visit of an object: its `buildString`, up to the first thing that depends on other objects or on a width field. -/
def Obj.todo (a : Addr) : Obj → List Todo
  | .null => [.text b!"null"]
  | .bool true => [.text b!"true"]
  | .bool false => [.text b!"false"]
  | .int n => [.text (intDec n)]
  | .float _ bit => [if bit ≠ 32 then .second a else .format a]       -- string.go:36, first test
  | .str s => [.text (quoteString s)]
  | .ptr id => [.text (60 :: (intDec id ++ [62]))]
  | .arr xs => .text [91] :: (arrTodo xs true ++ [.text [93]])
  | .dict id kvs =>
    if 0 < id then .text (123 :: (quoteString jsonPointerKey ++ 58 :: intDec id)) :: (dictTodo kvs false ++ [.text [125]])
    else .text [123] :: (dictTodo kvs true ++ [.text [125]])

/-- One step of one goroutine: memory and goroutine afterwards.  A nil variable inside a document (write.go:66, 77) panics: such
a goroutine never gets any further. -/
def Writer.step (h : Heap) (w : Writer) : Heap × Writer :=
  match w.todo with
  | [] => (h, w)
  | .text b :: r => (h, ⟨w.out ++ b, r⟩)
  | .node (some a) :: r => match h[a]? with
    | some o => (h, ⟨w.out, o.todo a ++ r⟩)
    | none => (h, w)                                -- dangling: does not occur in Go
  | .node none :: _ => (h, w)
  | .second a :: r => match h[a]? with
    | some (.float _ bit) => (h, ⟨w.out, (if bit ≠ 64 then .store a else .format a) :: r⟩)
    | _ => (h, w)
  | .store a :: r => match h[a]? with
    | some (.float x _) => (h.set a (.float x 64), ⟨w.out, .format a :: r⟩)
    | _ => (h, w)
  | .format a :: r => match h[a]? with
    | some (.float x bit) => (h, ⟨w.out ++ formatFloat x bit, r⟩)
    | _ => (h, w)

/-- Memory and goroutines. -/
structure Readers where
  mem : Heap
  ws : List Writer
  deriving Repr

/-- The scheduler runs goroutine `i` for one step (nothing happens if there is no such goroutine). -/
def Readers.run1 (s : Readers) (i : Nat) : Readers :=
  match s.ws[i]? with
  | none => s
  | some w => let r := w.step s.mem; ⟨r.1, s.ws.set i r.2⟩

/-- A whole schedule. -/
def Readers.run (s : Readers) (sched : List Nat) : Readers := sched.foldl Readers.run1 s

/-- Goroutines about to call `String()` on the documents at `roots`. -/
def Readers.init (h : Heap) (roots : List Addr) : Readers := ⟨h, roots.map fun a => ⟨[], [.node (some a)]⟩⟩

end Jsonutils
