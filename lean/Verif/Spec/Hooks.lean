import Verif.Model.Hooks
import Verif.Spec.Unmarshal
import Verif.Spec.Rfc8259

/-!
# Vocabulary for the methods of the user's types
-/

namespace Jsonutils

/-- What Go guarantees: `time.Time` is a struct type. -/
def Hooks.Ok (H : Hooks) : Prop := ∀ t, H.isTime t = true → ∃ n, t = .struct n

/-- No type in `t` has a method, and it is not `time.Time`; `S` are the struct types that may occur. -/
def Ty.Bare (H : Hooks) (S : Nat → Prop) : Ty → Prop
  | .slice t => H.std (.slice t) = none ∧ t.Bare H S
  | .array n t => H.std (.array n t) = none ∧ t.Bare H S
  | .map t => H.std (.map t) = none ∧ t.Bare H S
  | .ptr t => t.Bare H S
  | .struct n => H.std (.struct n) = none ∧ H.isTime (.struct n) = false ∧ S n
  | .jptr _ => True
  | t => H.std t = none

/-- The struct types `S` have no methods, and their fields neither. -/
def Hooks.Closed (H : Hooks) (P : UEnv) (S : Nat → Prop) : Prop :=
  ∀ n, S n → (∀ vs, H.after n vs = vs) ∧ ∀ (i : FInfo) (t : Ty), (i, t) ∈ P.defs.getD n [] → t.Bare H S

/-- `*...*T`, with `k` stars. -/
def Ty.ptrs (T : Ty) : Nat → Ty
  | 0 => T
  | k + 1 => .ptr (Ty.ptrs T k)

/-- `&...&x`. -/
def UV.ptrs (x : UV) : Nat → UV
  | 0 => x
  | k + 1 => .ptr (UV.ptrs x k)

/-- The variable of type `T` behind `k` pointers; a fresh one if some pointer is nil. -/
def UEnv.pointee (P : UEnv) (T : Ty) : Nat → UV → UV
  | 0, v => v
  | k + 1, .ptr x => P.pointee T k x
  | _ + 1, _ => P.zero T

/-- Types that are no pointers. -/
def Ty.NoPointer : Ty → Prop
  | .ptr _ => False
  | .jptr _ => False
  | _ => True

/-! ### Invariants of structs -/

mutual
/-- Every struct in the value satisfies the invariant of its type: `I n fields`. -/
def UV.Inv (I : Nat → List UV → Prop) (D : Defs) : UV → Ty → Prop
  | .seq xs spare, t => UV.Invs I D xs t.elem ∧ UV.Invs I D spare t.elem
  | .arr xs, t => UV.Invs I D xs t.elem
  | .map kvs, t => UV.Invm I D kvs t.elem
  | .ptr x, t => UV.Inv I D x t.elem
  | .struct vs, t => (∀ n, t = .struct n → I n vs) ∧ UV.Invf I D vs (t.fields D)
  | _, _ => True
def UV.Invs (I : Nat → List UV → Prop) (D : Defs) : List UV → Ty → Prop
  | [], _ => True
  | x :: xs, t => UV.Inv I D x t ∧ UV.Invs I D xs t
def UV.Invm (I : Nat → List UV → Prop) (D : Defs) : List (Bytes × UV) → Ty → Prop
  | [], _ => True
  | (_, x) :: xs, t => UV.Inv I D x t ∧ UV.Invm I D xs t
def UV.Invf (I : Nat → List UV → Prop) (D : Defs) : List UV → List (FInfo × Ty) → Prop
  | x :: xs, (_, t) :: fs => UV.Inv I D x t ∧ UV.Invf I D xs fs
  | _, _ => True
end

/-- What the methods must do for the invariant: zero values satisfy it; `AfterUnmarshal` establishes it, whatever the fields
hold (if what is inside them is fine), and breaks nothing inside; `UnmarshalJSON` and `ParseTimeStr` return values that satisfy it. -/
structure Hooks.Keeps (H : Hooks) (P : UEnv) (I : Nat → List UV → Prop) : Prop where
  zero : ∀ t, (P.zero t).Inv I P.defs t
  after : ∀ n vs, UV.Invf I P.defs vs (P.defs.getD n []) →
    I n (H.after n vs) ∧ UV.Invf I P.defs (H.after n vs) (P.defs.getD n [])
  std : ∀ t h, H.std t = some h → ∀ text v w e, v.Inv I P.defs t → h text v = some (w, e) → w.Inv I P.defs t
  time : ∀ t, H.isTime t = true → ∀ s, (H.parseTime s).Inv I P.defs t

/-! ### Embedded structs -/

mutual
/-- The structs inside a struct that are there (not behind nil pointers), innermost first, itself last. -/
def Emb.present : Emb → List Emb
  | .mk name own es => Emb.presents es ++ [.mk name own es]
def Emb.presents : List (Bool × Emb) → List Emb
  | [] => []
  | (isNil, e) :: es => (if isNil then [] else Emb.present e) ++ Emb.presents es
end

mutual
/-- The declarations of `AfterUnmarshal` at depth `d` of embedding, in a struct: at depth 0 its own; each with `true` if a pointer on the
way is nil. -/
def Emb.decls : Emb → Nat → List ACall
  | .mk name own _, 0 => if own then [⟨name, false⟩] else []
  | .mk _ _ es, d + 1 => Emb.declss es d
/-- The same for the embedded structs. -/
def Emb.declss : List (Bool × Emb) → Nat → List ACall
  | [], _ => []
  | (isNil, e) :: es, d => ((Emb.decls e d).map fun c => ⟨c.on, c.isNil || isNil⟩) ++ Emb.declss es d
end

def Emb.name : Emb → Nat
  | .mk n _ _ => n
def Emb.own : Emb → Bool
  | .mk _ o _ => o
def Emb.embedded : Emb → List (Bool × Emb)
  | .mk _ _ es => es

end Jsonutils
