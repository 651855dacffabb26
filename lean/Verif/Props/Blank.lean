import Verif.Proofs.Blank

/-!
# C39, C40: exactly the empty values are left out, in any memory
-/

namespace Jsonutils.Props

variable {ord : SMap Bytes → List (Bytes × Bytes)} {pick : List Nat → Nat}

/-- **C40, in any memory**, with shared and cyclic pointers: `Marshal` omits a field exactly if it is empty.  A reference to
a value that is being marshalled is never omitted, however often the value was met before, and an empty value is omitted
wherever and however often it is met. -/
theorem C40_omits (hord : ∀ dep, (ord dep).Perm dep) {h : List GV} {fs : List (FInfo × GV)} (hd : DistinctNames fs) {n : Nat} {j : J}
    (hm : marshal ord pick true h n (.struct fs) = some j) :
    ∃ id m, j = .dict id m ∧ ∀ i x, (i, x) ∈ fs → i.Proper → (smGet m i.name = none ↔ x.Blank h (some i)) :=
  marshal_omits hord hd hm

/-- **C40, deprecated fields, in any memory**: a deprecated field is written like the field at the end of its chain, and
left out if the chain has no end; every key is that of a field. -/
theorem C40_aliases (hord : ∀ dep, (ord dep).Perm dep) {oe : Bool} {h : List GV} {fs : List (FInfo × GV)} (hd : DistinctNames fs) {n : Nat} {j : J}
    (hm : marshal ord pick oe h n (.struct fs) = some j) :
    ∃ id m, j = .dict id m ∧
      (∀ i x k e, (i, x) ∈ fs → i.ignore = false → i.deprecatedBy = some k → DepEnd (depMap fs) k e → smGet m i.name = smGet m e) ∧
      (∀ i x k, (i, x) ∈ fs → i.ignore = false → i.deprecatedBy = some k → (¬ ∃ e, DepEnd (depMap fs) k e) → smGet m i.name = none) ∧
      (∀ k v, smGet m k = some v → ∃ i x, (i, x) ∈ fs ∧ i.ignore = false ∧ i.name = k) :=
  marshal_aliases hord hd hm

/-- **C40, the entries of a map, in any memory.** -/
theorem C40_omits_map {h : List GV} {kvs : List (Bytes × GV)} {n : Nat} {j : J} (hm : marshal ord pick true h n (.map kvs) = some j) :
    ∃ id m, j = .dict id m ∧ ∀ k, smGet m k = none ↔ ∀ x, (k, x) ∈ kvs → x.Blank h none :=
  marshal_omits_map hm

/-- **C39, how many elements are dropped, in any memory**: the array has one element for each element of the slice that
is not empty. -/
theorem C39_omits {h : List GV} {xs : List GV} {n : Nat} {j : J} (hm : marshal ord pick true h n (.seq xs) = some j) :
    ∃ ys zs, j = .arr ys ∧ GV.Kept h xs zs ∧ ys.length = zs.length :=
  marshal_omits_seq hm

/-- **C40, empty**: without cycles it is the word used in the other theorems. -/
theorem C40_blank {h : List GV} {g : GV} {info : Option FInfo} (hac : Acyclic h g) : g.Blank h info ↔ g.IsEmpty h info := by
  obtain ⟨t, hu⟩ := hac
  refine (blank_iff_empty hu info).trans ⟨fun q => ⟨t, hu, q⟩, ?_⟩
  rintro ⟨t', a, b⟩
  rw [unf_fun a hu] at b; exact b

/-- A node whose next is itself, with an empty struct that hangs on to the node with a field that is not written. -/
def exBlankMem : List GV :=
  [.struct [({ name := b!"next" }, .ptr 0), ({ name := b!"e", omitEmpty := true }, .ptr 1)], .struct [({ name := b!"back", ignore := true }, .ptr 0)]]

def exBlank : List (FInfo × GV) := [({ name := b!"a" }, .ptr 0), ({ name := b!"b" }, .ptr 1)]

example : DistinctNames exBlank := by unfold DistinctNames; decide

example : marshal id List.head! true exBlankMem 2 (.struct exBlank) =
    some (.dict 0 [(b!"a", .dict 1 [(b!"next", .ptr 1)]), (b!"b", .dict 0 [])]) := by rfl

/-- The struct is on a cycle, so `GV.IsEmpty` is silent about it; with the option omitempty it is empty. -/
example : (GV.ptr 1).Blank exBlankMem (some { name := b!"e", omitEmpty := true }) := by
  refine .ptr rfl (.struct rfl fun i x hm hp => ?_)
  simp only [List.mem_cons, List.not_mem_nil, or_false, Prod.mk.injEq] at hm
  obtain ⟨rfl, rfl⟩ := hm
  cases hp.1

/-- Without it, it is not. -/
theorem exBlank_not : ¬ (GV.ptr 1).Blank exBlankMem none := by
  intro q
  cases q with
  | ptr e q => cases e; cases q with | struct a _ => cases a

example : marshal id List.head! true exBlankMem 2 (.map [(b!"k", .iface (.leaf .nil)), (b!"l", .ptr 0)]) =
    some (.dict 0 [(b!"l", .dict 1 [(b!"next", .ptr 1)])]) := by rfl

example : marshal id List.head! true exBlankMem 2 (.seq [.leaf .nil, .ptr 0, .leaf .nil]) = some (.arr [.dict 1 [(b!"next", .ptr 1)]]) := by rfl

example : GV.Kept exBlankMem [.leaf .nil, .ptr 1, .leaf .nil] [.ptr 1] :=
  .drop (.leaf trivial) (.keep exBlank_not (.drop (.leaf trivial) .nil))

/-- A deprecated field is written with the reference of the field that replaces it. -/
def exAliased : List (FInfo × GV) := [({ name := b!"a" }, .ptr 0), ({ name := b!"o", deprecatedBy := some b!"a" }, .leaf (.bool true))]

example : DistinctNames exAliased ∧ DepEnd (depMap exAliased) b!"a" b!"a" := ⟨by unfold DistinctNames; decide, .here rfl⟩

example : marshal id List.head! true [.struct [({ name := b!"n" }, .ptr 0), ({ name := b!"p", deprecatedBy := some b!"n" }, .leaf .nil)]] 1 (.ptr 0) =
    some (.dict 1 [(b!"n", .ptr 1), (b!"p", .ptr 1)]) := by rfl

end Jsonutils.Props
