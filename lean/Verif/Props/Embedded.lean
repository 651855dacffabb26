import Verif.Proofs.Embedded
import Verif.Props.UnmarshalMore

/-!
# Structs embedded by pointers: C89

`unmarshalE parent P n kvs s`: the dictionary `kvs` is unmarshalled into the variable `s` of struct type `n`; field `i` belongs to the struct
behind the embedded pointer `p` if `parent i = some p`.  `s.fields` are the fields (those of a struct that is not there yet are zero),
`s.alive` the embedded pointers that are not nil.
-/

namespace Jsonutils.Props

variable {parent : Nat → Option Nat} {P : UEnv}

private theorem split {n : Nat} {kvs : SMap J} {s s' : EVar} {e : Option UErr} (h : unmarshalE parent P n kvs s = some (s', e)) :
    ∃ es, unmE parent P n kvs s = some (s', es) ∧ e = if es.isEmpty then none else some (.agg es) := by
  unfold unmarshalE at h
  cases hu : unmE parent P n kvs s with
  | none => rw [hu] at h; cases h
  | some p => rw [hu] at h; cases h; exact ⟨_, rfl, rfl⟩

/-- **C89, the fields.** The fields and the error are those of the struct that has all the fields itself, so that what the other properties say
of structs holds for these. -/
theorem C89_fields (id : Int) (n : Nat) (kvs : SMap J) (s : EVar) :
    (unmarshalE parent P n kvs s).map (fun r => (UV.struct r.1.fields, r.2)) = (J.dict id kvs).unm P (.struct n) (.struct s.fields) := by
  simp only [J.unm, UEnv.alloc, dictInto, unmarshalE]
  rw [← unmE_flat (parent := parent)]
  cases unmE parent P n kvs s <;> rfl

/-- **C89, nothing else is allocated.** Pointers that were set remain set.  One is set only if some key of the dictionary leads to a field of
its struct, directly or through deprecated-by options; otherwise it remains nil. -/
theorem C89_only {n : Nat} {kvs : SMap J} {s s' : EVar} {e : Option UErr} (h : unmarshalE parent P n kvs s = some (s', e)) :
    (∀ p ∈ s.alive, p ∈ s'.alive) ∧
    ∀ p ∈ s'.alive, p ∈ s.alive ∨ ∃ i k j, (k, j) ∈ kvs ∧ Touches (P.idx n) (P.defs.getD n []) k i ∧ parent i = some p := by
  obtain ⟨es, hu, _⟩ := split h
  have g := unmE_step _ _ _ hu
  exact ⟨g.keep, fun p hp => (g.only p hp).imp id fun ⟨i, ⟨k, j, h1, h2⟩, h3⟩ => ⟨i, k, j, h1, h2, h3⟩⟩

/-- **C89, all is allocated.** If there is no error, all pointers are set whose struct has a field to which a key leads, null or not. -/
theorem C89_allocated {n : Nat} {kvs : SMap J} {s s' : EVar} (h : unmarshalE parent P n kvs s = some (s', none)) (p : Nat) :
    p ∈ s'.alive ↔ p ∈ s.alive ∨ ∃ i k j, (k, j) ∈ kvs ∧ Touches (P.idx n) (P.defs.getD n []) k i ∧ parent i = some p := by
  refine ⟨(C89_only h).2 p, fun hp => ?_⟩
  obtain ⟨es, hu, he⟩ := split h
  have hes : es = [] := by
    cases es with
    | nil => rfl
    | cons a b => simp at he
  subst hes
  rcases hp with hp | ⟨i, k, j, h1, h2, h3⟩
  · exact (C89_only h).1 p hp
  · exact unmE_reached _ _ _ hu k j i p h1 h2 h3

/-- **C89, errors.** Whatever the errors: the pointer is set if a key matches just one field, and that is in its struct. -/
theorem C89_allocated_error {n : Nat} {kvs : SMap J} {s s' : EVar} {e : Option UErr} (h : unmarshalE parent P n kvs s = some (s', e))
    (k : Bytes) (j : J) (hk : (k, j) ∈ kvs) (i p : Nat) (hi : P.idx n k = [i]) (hp : parent i = some p) : p ∈ s'.alive := by
  obtain ⟨es, hu, _⟩ := split h
  exact unmE_direct _ _ _ hu k j i p hk hi hp

/-- **C89, no write is lost.** Whatever the errors, a field that does not have the value it had is not in a struct that is not there. -/
theorem C89_no_write_lost {n : Nat} {kvs : SMap J} {s s' : EVar} {e : Option UErr} (h : unmarshalE parent P n kvs s = some (s', e))
    (i p : Nat) (hp : parent i = some p) (hi : s'.fields[i]? ≠ s.fields[i]?) : p ∈ s'.alive := by
  obtain ⟨es, hu, _⟩ := split h
  exact ((unmE_step _ _ _ hu).safe i p hp).resolve_right hi

/-! ### An example -/

/-- `struct { A int; *B; *C }`, `B = struct { X int; Y string }`, `C = struct { Z int "deprecated-by:x" }`. -/
private def exP : UEnv where
  defs := [[({ name := b!"a" }, .int 64), ({ name := b!"x" }, .int 64), ({ name := b!"y" }, .string), ({ name := b!"z", deprecatedBy := some b!"x" }, .int 64)]]
  idx := fun _ k => if k = b!"a" then [0] else if k = b!"x" then [1] else if k = b!"y" then [2] else if k = b!"z" then [3] else []
  toBool := fun _ => false
  us := fun _ => false
  eu := fun _ => false
  trunc := fun _ => 0

private def exParent : Nat → Option Nat
  | 1 => some 0
  | 2 => some 0
  | 3 => some 1
  | _ => none

private def exVar : EVar := ⟨[.int 0, .int 0, .str [], .int 0], []⟩

/-- `{"a": 1}` leaves both pointers nil. -/
example : unmarshalE exParent exP 0 [(b!"a", .int 1)] exVar = some (⟨[.int 1, .int 0, .str [], .int 0], []⟩, none) := rfl

/-- `{"x": null}` allocates the first struct. -/
example : unmarshalE exParent exP 0 [(b!"x", .null)] exVar = some (⟨[.int 0, .int 0, .str [], .int 0], [0]⟩, none) := rfl

/-- `{"z": 3}` allocates both, through the deprecated-by option. -/
example : unmarshalE exParent exP 0 [(b!"z", .int 3)] exVar = some (⟨[.int 0, .int 3, .str [], .int 3], [0, 1]⟩, none) := rfl

/-- `{"x": []}` fails, and allocates. -/
example : ∃ e, unmarshalE exParent exP 0 [(b!"x", .arr [])] exVar = some (⟨[.int 0, .int 0, .str [], .int 0], [0]⟩, some e) := ⟨_, rfl⟩

end Jsonutils.Props
