import Verif.Proofs.Within
import Verif.Proofs.WithinGraph

/-!
# C40: what `Marshal` writes is what `MarshalAll` writes, with things left out
-/

namespace Jsonutils.Props

variable {ord : SMap Bytes → List (Bytes × Bytes)} {pick : List Nat → Nat}

/-- **C40, at every depth.** For acyclic ordinary data (distinct keys, `,string` on scalars only) the result of `Marshal`
is the result of `MarshalAll` with some members and some elements left out, at any depth: nothing is changed, moved or
added, and arrays keep their order. -/
theorem C40_within (hord : ∀ dep, (ord dep).Perm dep) {h : List GV} {g : GV} {t : TV} (hu : Unf h g t) (hr : t.Regular) {n n' : Nat} {j j' : J}
    (hm : marshal ord pick true h n g = some j) (hm' : marshal ord pick false h n' g = some j') : j.Within j' := by
  obtain ⟨o, h1, rfl⟩ := marshal_tree hu hm
  obtain ⟨o', h2, rfl⟩ := marshal_tree hu hm'
  cases o with
  | none =>
    rw [mar_none_null t h1] at h2
    cases h2; exact .same _
  | some v =>
    obtain ⟨v', rfl, hw⟩ := mar_within hord t hr none (by intro e; cases e) v o' h1 h2
    exact hw

/-- A list of a nil and a struct with an empty and a full list. -/
def exWithin : GV := .seq [.leaf .nil, .struct [({ name := b!"a" }, .leaf .nil), ({ name := b!"b" }, .seq [.leaf (.int 1), .leaf .nil]),
  ({ name := b!"c", omitEmpty := true }, .map []), ({ name := b!"d", forceString := true }, .leaf (.int 3))]]

example : ∃ t, Unf [] exWithin t ∧ t.Regular := by
  refine ⟨_, .seq (.cons (.leaf _) (.cons (.struct (.cons (.leaf _) (.cons (.seq (.cons (.leaf _) (.cons (.leaf _) .nil))) (.cons (.map .nil) (.cons (.leaf _) .nil))))) .nil)), ?_⟩
  refine ⟨trivial, ⟨by unfold DistinctNames; decide, ?_⟩, trivial⟩
  exact ⟨.inr (.inr ⟨fun _ => trivial, trivial⟩), .inr (.inr ⟨(by intro e; cases e), trivial, trivial, trivial⟩),
    .inr (.inr ⟨(by intro e; cases e), by decide, trivial⟩), .inr (.inr ⟨fun _ => trivial, trivial⟩), trivial⟩

example : marshal id pick true [] 1 exWithin = some (.arr [.dict 0 [(b!"b", .arr [.int 1]), (b!"d", .str b!"3")]]) := by rfl

example : marshal id pick false [] 1 exWithin =
    some (.arr [.null, .dict 0 [(b!"a", .null), (b!"b", .arr [.int 1, .null]), (b!"c", .dict 0 []), (b!"d", .str b!"3")]]) := by rfl

/-- With `,string` on a container it does not hold: the two texts differ. -/
theorem C40_within_needed : marshal id pick true [] 1 (.struct [({ name := b!"a", forceString := true }, .seq [.leaf .nil])]) = some (.dict 0 [(b!"a", .str b!"[]")]) ∧
    marshal id pick false [] 1 (.struct [({ name := b!"a", forceString := true }, .seq [.leaf .nil])]) = some (.dict 0 [(b!"a", .str b!"[null]")]) ∧
    ¬ (J.dict 0 [(b!"a", .str b!"[]")]).Within (.dict 0 [(b!"a", .str b!"[null]")]) := by
  refine ⟨rfl, rfl, fun hw => ?_⟩
  cases hw with
  | dict _ h2 =>
    have := h2 b!"a" _ _ rfl rfl
    cases this

/-- **C40, at every depth, in any memory**, with shared and cyclic pointers: nothing is changed, moved or added, the node
ids and references included. -/
theorem C40_within_graph (hord : ∀ dep, (ord dep).Perm dep) {h : List GV} {g : GV} (hr : GraphRegular h g) {n n' : Nat} {j j' : J}
    (hm : marshal ord pick true h n g = some j) (hm' : marshal ord pick false h n' g = some j') : j.Within j' :=
  marshal_within_graph hord hr hm hm'

/-- **C40, both return or neither does**, for every value in any memory: leaving out empty fields never avoids a value
that `MarshalAll` hangs on, and never costs one more level of nesting. -/
theorem C40_ends_alike (hord : ∀ dep, (ord dep).Perm dep) (h : List GV) (n : Nat) (g : GV) :
    marshal ord pick true h n g = none ↔ marshal ord pick false h n g = none :=
  marshal_all_ends hord pick h n g

/-- A list node whose next is itself, with an empty list, a nil and a number. -/
def exWithinMem : List GV := [.struct [({ name := b!"next" }, .ptr 0), ({ name := b!"l", omitEmpty := true }, .seq []),
  ({ name := b!"n" }, .iface (.leaf .nil)), ({ name := b!"v", forceString := true }, .ptr 1)], .leaf (.int 7)]
def exWithinRoot : GV := .seq [.ptr 0, .leaf .nil, .ptr 0]

example : GraphRegular exWithinMem exWithinRoot := by
  refine ⟨⟨trivial, trivial, trivial, trivial⟩, ?_⟩
  intro x hx
  simp only [exWithinMem, List.mem_cons, List.not_mem_nil, or_false] at hx
  rcases hx with rfl | rfl
  · exact ⟨by unfold DistinctNames; decide, .inr (.inr ⟨(by intro e; cases e), trivial⟩), .inr (.inr ⟨(by intro e; cases e), trivial⟩),
      .inr (.inr ⟨(by intro e; cases e), trivial⟩), .inr (.inr ⟨fun _ => .ptr rfl (.leaf _), trivial⟩), trivial⟩
  · trivial

example : marshal id List.head! true exWithinMem 3 exWithinRoot =
    some (.arr [.dict 1 [(b!"next", .ptr 1), (b!"v", .str b!"7")], .ptr 1]) := by rfl

example : marshal id List.head! false exWithinMem 3 exWithinRoot =
    some (.arr [.dict 1 [(b!"l", .arr []), (b!"n", .null), (b!"next", .ptr 1), (b!"v", .str b!"7")], .null, .ptr 1]) := by rfl

end Jsonutils.Props
