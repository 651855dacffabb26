import Verif.Proofs.GraphRoot

/-!
# Unmarshal of documents with node ids and references: C61
-/

namespace Jsonutils.Props

variable {P : UEnv} {τ : Int → Ty}

/-- **C61, references are resolved.** A document that fits the type (with distinct node ids, and no reference before the
dictionary it refers to) is read into a zero variable without error: nothing in memory changes but the variable `l` (and what
is in it), new objects come into being, and the result is what the document says: in particular, every reference is a pointer to
the very object into which its dictionary was read, and references to ids that the document does not define are nil. -/
theorem C61_resolved (hw : P.defs.Wf) {j : J} {t : Ty} {l : Loc} {M : List HV} (hr : j.Rootable) (hf : j.Fits P τ t ∨ j.Fits P τ (.ptr t))
    (hz : memGet M l = some (P.hzero t)) (hids : (defIds j.events).Nodup) (hnf : NoForward j.events) :
    ∃ c new D, j.hunmarshal P [] t l M = some (memSet M l c ++ new, none) ∧
      j.Holds P (fun b => M.length ≤ b ∨ b = l.base) (memSet M l c ++ new) D (.ptr t) (.ptr l) ∧
      ∀ id, D id ≠ none ↔ .defn id ∈ j.events :=
  (root_exact hw hr hf hz hids).1 hnf

/-- **C61, forward references panic.** If a reference comes before the dictionary it refers to, `Unmarshal` panics; and this is the
only way in which it can fail on such documents. -/
theorem C61_forward_panics (hw : P.defs.Wf) {j : J} {t : Ty} {l : Loc} {M : List HV} (hr : j.Rootable) (hf : j.Fits P τ t ∨ j.Fits P τ (.ptr t))
    (hz : memGet M l = some (P.hzero t)) (hids : (defIds j.events).Nodup) : j.hunmarshal P [] t l M = none ↔ ¬ NoForward j.events := by
  obtain ⟨h1, h2⟩ := root_exact hw hr hf hz hids
  refine ⟨fun h hn => ?_, h2⟩
  obtain ⟨c, new, D, h3, _⟩ := h1 hn
  rw [h] at h3; cases h3

/-- **C61, references and interface variables.** After the dictionary has been read into the variable `p`, a reference to it makes an
`interface{}` variable a pointer to `p`, likewise a pointer variable of exactly that type (for a `JSONDict` the type `*JSONDict`, etc.); a
`JSONObject` variable takes it exactly if `p` is a `JSONDict`, `JSONArray`, ... itself; every other variable panics. -/
theorem C61_interface (P : UEnv) (s : UH) (id : Int) (p : Loc) (pt : Ty) (ts : List (Loc × Ty)) (l : Loc) (hs : s.sess id = some ⟨some (p, pt), ts⟩) :
    (J.ptr id).hunm P .any l s = some (s.set l (.ptr p), none) ∧
    ((∀ k, pt ≠ .jval k) → (J.ptr id).hunm P (.ptr pt) l s = some (s.set l (.ptr p), none)) ∧
    ((∃ k, pt = .jval k) → (J.ptr id).hunm P .jobj l s = some (s.set l (.ptr p), none)) ∧
    ((∀ k, pt ≠ .jval k) → (J.ptr id).hunm P .jobj l s = none) ∧
    (∀ t, t ≠ pt → (J.ptr id).hunm P (.ptr t) l s = none) ∧
    (∀ k, pt = .jval k → (J.ptr id).hunm P (.jptr k) l s = some (s.set l (.ptr p), none)) ∧
    (∀ k, pt ≠ .jval k → (J.ptr id).hunm P (.jptr k) l s = none) := by
  simp only [J.hunm, UH.refer, hs, UH.setPtr, assignable]
  refine ⟨by simp, fun h => ?_, fun ⟨k, hk⟩ => by subst hk; simp, fun h => ?_, fun t h => ?_, fun k hk => by subst hk; simp [Ty.ptrTo], fun k h => ?_⟩
  · cases pt <;> simp_all [Ty.ptrTo]
  · cases pt <;> simp_all [Ty.ptrTo]
  · cases pt <;> simp_all [Ty.ptrTo] <;> exact fun he => h he.symm
  · cases pt <;> simp_all [Ty.ptrTo]

/-! ### Examples -/

/-- `type Node struct { Next *Node; Val int }`, with keys "next" and "val". -/
def exNodes : UEnv where
  defs := [[({ name := b!"next" }, .ptr (.struct 0)), ({ name := b!"val" }, .int 64)]]
  idx := fun _ k => if k = b!"next" then [0] else if k = b!"val" then [1] else []
  toBool := fun _ => false
  us := fun _ => false
  eu := fun _ => false
  trunc := fun _ => 0

/-- A ring of two nodes. -/
def exRing : J := .dict 1 [(b!"next", .dict 0 [(b!"next", .ptr 1), (b!"val", .int 2)]), (b!"val", .int 1)]

theorem exNodes_wf : exNodes.defs.Wf := by
  intro n fs h i t ht
  match n with
  | 0 =>
    simp only [exNodes, List.getElem?_cons_zero, Option.some.injEq] at h
    subst h
    simp only [List.mem_cons, Prod.mk.injEq, List.not_mem_nil, or_false] at ht
    rcases ht with ⟨_, rfl⟩ | ⟨_, rfl⟩ <;> trivial
  | n + 1 => simp [exNodes] at h

theorem exInt_fits (n : Int) (h : wrapI 64 n = n) : (J.int n).Fits exNodes (fun _ => .struct 0) (.int 64) := by
  refine ⟨trivial, .int n, ?_⟩
  simp [Ty.chainEnd, J.unm, UEnv.alloc, unmInt, h]

theorem exRing_fits : exRing.Fits exNodes (fun _ => .struct 0) (.ptr (.struct 0)) := by
  have hne : exNodes.idx 0 b!"next" ≠ exNodes.idx 0 b!"val" := by decide
  refine ⟨.struct 0, Or.inr rfl, fun _ => rfl, _, rfl, ⟨⟨0, _, _, rfl, rfl, rfl, ?_⟩, ⟨1, _, _, rfl, rfl, rfl, exInt_fits 1 (by decide)⟩, trivial⟩, ?_⟩
  · refine ⟨.struct 0, Or.inr rfl, fun h => absurd h (by decide), _, rfl, ⟨⟨0, _, _, rfl, rfl, rfl, rfl, rfl⟩, ⟨1, _, _, rfl, rfl, rfl, exInt_fits 2 (by decide)⟩, trivial⟩, ?_⟩
    simp [hne]
  · simp [hne]

theorem exRing_events : exRing.events = [.defn 1, .use 1] := by rfl

theorem exRing_noForward : NoForward exRing.events := by
  rw [exRing_events]
  intro pre id post h
  match pre with
  | [] => simp
  | [_] => simp at h
  | _ :: _ :: _ => simp at h

/-- The hypotheses of C61 are met by the ring. -/
example : exRing.Rootable ∧ (exRing.Fits exNodes (fun _ => .struct 0) (.struct 0) ∨ exRing.Fits exNodes (fun _ => .struct 0) (.ptr (.struct 0))) ∧
    memGet [exNodes.hzero (.struct 0)] ⟨0, []⟩ = some (exNodes.hzero (.struct 0)) ∧ (defIds exRing.events).Nodup ∧ NoForward exRing.events :=
  ⟨trivial, Or.inr exRing_fits, rfl, by rw [exRing_events]; simp [defIds], exRing_noForward⟩

/-- What is in memory afterwards: `x.Next.Next == &x`. -/
example : exRing.hunmarshal exNodes [] (.struct 0) ⟨0, []⟩ [exNodes.hzero (.struct 0)] =
    some ([.struct [.ptr ⟨1, []⟩, .val (.int 1)], .struct [.ptr ⟨0, []⟩, .val (.int 2)]], none) := by rfl

/-- `type T struct { B, A *T }`. -/
def exTwo : UEnv where
  defs := [[({ name := b!"b" }, .ptr (.struct 0)), ({ name := b!"a" }, .ptr (.struct 0))]]
  idx := fun _ k => if k = b!"b" then [0] else if k = b!"a" then [1] else []
  toBool := fun _ => false
  us := fun _ => false
  eu := fun _ => false
  trunc := fun _ => 0

/-- **C61, FALSE in general**: what `MarshalAll` writes of a struct whose fields are not declared in the order of their keys
cannot always be read back: with `y.A = y`, `Unmarshal` panics on what `MarshalAll(T{B: y, A: y})` gives. -/
theorem C61_marshal_panics :
    marshal id List.head! false [.struct [({ name := b!"b" }, .leaf .nil), ({ name := b!"a" }, .ptr 0)]] 2
      (.struct [({ name := b!"b" }, .ptr 0), ({ name := b!"a" }, .ptr 0)]) =
      some (.dict 0 [(b!"a", .ptr 1), (b!"b", .dict 1 [(b!"a", .ptr 1), (b!"b", .null)])]) ∧
    (J.dict 0 [(b!"a", .ptr 1), (b!"b", .dict 1 [(b!"a", .ptr 1), (b!"b", .null)])]).hunmarshal exTwo [] (.struct 0) ⟨0, []⟩ [exTwo.hzero (.struct 0)] = none :=
  ⟨by rfl, by rfl⟩

/-- `type T struct { A interface{}; B *T }`. -/
def exAny : UEnv where
  defs := [[({ name := b!"a" }, .any), ({ name := b!"b" }, .ptr (.struct 0))]]
  idx := fun _ k => if k = b!"a" then [0] else if k = b!"b" then [1] else []
  toBool := fun _ => false
  us := fun _ => false
  eu := fun _ => false
  trunc := fun _ => 0

/-- **C61, FALSE for interface variables**: a reference in an `interface{}` variable that comes before its dictionary does not panic, but
becomes a pointer to the pointer variable (a `**T`), not to the object: `x.A` is `&x.B`.  After its dictionary it is right: in `x.B`, `A` is
`x.B`. -/
theorem C61_interface_forward :
    (J.dict 0 [(b!"a", .ptr 1), (b!"b", .dict 1 [(b!"a", .ptr 1)])]).hunmarshal exAny [] (.struct 0) ⟨0, []⟩ [exAny.hzero (.struct 0)] =
      some ([.struct [.ptr ⟨0, [1]⟩, .ptr ⟨1, []⟩], .struct [.ptr ⟨1, []⟩, .val .nil]], none) := by rfl

/-- A reference to nothing is nil. -/
example : (J.dict 0 [(b!"next", .ptr 7)]).hunmarshal exNodes [] (.struct 0) ⟨0, []⟩ [exNodes.hzero (.struct 0)] =
    some ([.struct [.val .nil, .val (.int 0)]], none) := by rfl

end Jsonutils.Props
