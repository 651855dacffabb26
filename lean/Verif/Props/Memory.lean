import Verif.Proofs.MemKeep
import Verif.Props.GraphTrip

/-!
# `Unmarshal` into variables that are not zero: C63, C64

`Owns M l v F` (`Spec/Memory.lean`): in memory `M`, the variable at `l` holds the value `v`, spread over the objects `F`, each of which is met only once: nothing in the value is shared.
`Reaches M a b`: object `b` can be reached from object `a`.  Both are about memory before `Unmarshal` or after.
-/

namespace Jsonutils.Props

variable {P : UEnv} {j : J} {t : Ty} {M M' : List HV} {l : Loc} {v : UV} {F : List Nat} {e : Option UErr}

/-- **C63.** Into a variable that holds a value of which no part is shared, `Unmarshal` of a document without references that refer to a dictionary of it does in memory exactly what it does on values (C44 and on):
the same panics, the same error, the same value afterwards; it writes nothing outside the objects of which the value consisted, and the new value consists of those and of new ones, with nothing shared. -/
theorem C63_unshared (hP : P.Ok) (hj : j.WF) (hn : NoResolved j.events) (keys : List Bytes) (ht : t.Valid P.defs) (ho : Owns M l v F) (hv : v.HasTy P.defs t) :
    (j.hunmarshal P keys t l M = none ↔ j.unmarshal P keys t v = none) ∧
    ∀ v' e, j.unmarshal P keys t v = some (v', e) →
      ∃ M' F', j.hunmarshal P keys t l M = some (M', e) ∧ Owns M' l v' F' ∧ OnlyWrites M M' l F ∧ ∀ b ∈ F', b ∈ F ∨ M.length ≤ b := by
  have h := hunmarshal_ref hP hj hn keys ht ho hv
  unfold Refines at h
  split at h
  · rename_i hu
    exact ⟨by simp [h, hu], fun _ _ h' => by rw [hu] at h'; cases h'⟩
  · rename_i v' e hu
    obtain ⟨M', F', h1, h2⟩ := h
    refine ⟨by simp [h1, hu], fun v'' e' h' => ?_⟩
    rw [hu] at h'
    cases h'
    exact ⟨M', F', h1, h2⟩

/-- **C63, in place: pointers.** A variable that holds a pointer still holds the same pointer after `Unmarshal` of a string, array or dictionary into it: what it points to is overwritten. -/
theorem C63_in_place_pointer (hP : P.Ok) (hj : j.WF) (hn : NoResolved j.events) {keys : List Bytes} {d : J} (hs : Selects j keys d) (hd : d.Rootable) (ht : t.Valid P.defs)
    (ho : Owns M l v F) (hv : v.HasTy P.defs (.ptr t)) {l' : Loc} (hl : memGet M l = some (.ptr l')) (h : j.hunmarshal P keys (.ptr t) l M = some (M', e)) : memGet M' l = some (.ptr l') := by
  obtain ⟨c, hg, hr, hd'⟩ := ho
  rw [hl] at hg
  cases hg
  obtain ⟨h1, h2, s, h3, rfl⟩ := selects_run hj hs hd h
  exact hunm_keep_ptr (U := fun id => .use id ∈ j.events) (s := ⟨M, fun _ => none⟩) hP h1 (fun id => ⟨fun h => h2 _ h, fun h hu => hn id hu (h2 _ h)⟩) (by rintro rfl; exact hd) (by rintro id rfl; exact hd) ht
    ⟨hl, hr, hd', fun _ _ h => by cases h⟩ hv h3

/-- **C63, in place: maps.** A variable that holds a map still holds the same map after `Unmarshal` of a dictionary into it. -/
theorem C63_in_place_map (hP : P.Ok) (hj : j.WF) (hn : NoResolved j.events) {keys : List Bytes} {id : Int} {kvs : SMap J} (hs : Selects j keys (.dict id kvs)) (ht : t.Valid P.defs)
    (ho : Owns M l v F) (hv : v.HasTy P.defs (.map t)) {b : Nat} (hl : memGet M l = some (.map b)) (h : j.hunmarshal P keys (.map t) l M = some (M', e)) : memGet M' l = some (.map b) := by
  obtain ⟨c, hg, hr, hd'⟩ := ho
  rw [hl] at hg
  cases hg
  obtain ⟨h1, h2, s, h3, rfl⟩ := selects_run hj hs trivial h
  exact hunm_keep_map (U := fun id => .use id ∈ j.events) (s := ⟨M, fun _ => none⟩) hP h1 (fun id => ⟨fun h => h2 _ h, fun h hu => hn id hu (h2 _ h)⟩) ht
    ⟨hl, hr, hd', fun _ _ h => by cases h⟩ hv h3

/-- **C63, in place: slices.** A slice with capacity for the elements of an array keeps its backing array, and has as many elements as the array afterwards. -/
theorem C63_in_place_slice (hP : P.Ok) (hj : j.WF) (hn : NoResolved j.events) {keys : List Bytes} {xs : List J} (hs : Selects j keys (.arr xs)) (ht : t.Valid P.defs)
    (ho : Owns M l v F) (hv : v.HasTy P.defs (.slice t)) {b n : Nat} (hl : memGet M l = some (.seq b n)) {ys : List HV} (hb : M[b]? = some (.arr ys)) (hc : xs.length ≤ ys.length)
    (h : j.hunmarshal P keys (.slice t) l M = some (M', e)) : memGet M' l = some (.seq b xs.length) := by
  obtain ⟨c, hg, hr, hd'⟩ := ho
  rw [hl] at hg
  cases hg
  obtain ⟨h1, h2, s, h3, rfl⟩ := selects_run hj hs trivial h
  exact hunm_keep_slice (U := fun id => .use id ∈ j.events) (s := ⟨M, fun _ => none⟩) hP h1 (fun id => ⟨fun h => h2 _ h, fun h hu => hn id hu (h2 _ h)⟩) ht
    ⟨hl, hr, hd', fun _ _ h => by cases h⟩ hv hb hc h3

/-- **C64, writes.** `Unmarshal` of any document into any variable, whatever is shared or cyclic in it, changes no object that cannot be reached from the variable. -/
theorem C64_writes {keys : List Bytes} (h : j.hunmarshal P keys t l M = some (M', e)) : ∀ b, b < M.length → ¬ Reaches M l.base b → M'[b]? = M[b]? := by
  obtain ⟨s, hc, rfl⟩ := hunmarshal_stays P h
  intro b hb hr
  exact hc.keep b fun hs => by
    rcases hs with hs | hs
    · exact hr hs
    · omega

/-- **C64, reads.** Afterwards the variable reaches no object that was there before and that it did not reach: `Unmarshal` ties it to nothing but new objects. -/
theorem C64_reaches {keys : List Bytes} (h : j.hunmarshal P keys t l M = some (M', e)) : ∀ b, b < M.length → Reaches M' l.base b → Reaches M l.base b := by
  obtain ⟨s, hc, rfl⟩ := hunmarshal_stays P h
  have key : ∀ b, Reaches s.mem l.base b → Reaches M l.base b ∨ M.length ≤ b := by
    intro b hr
    induction hr with
    | here => exact Or.inl .here
    | step _ ho hb ih => exact hc.closed _ _ ih ho _ hb
  intro b hb hr
  rcases key b hr with h | h
  · exact h
  · omega

/-! ### Examples -/

/-- `x := []*Node{{Val: 5}, {Val: 6}}[:1]`: a slice of one pointer, with room for another. -/
def exSliceMem : List HV :=
  [.seq 1 1, .arr [.ptr ⟨2, []⟩, .ptr ⟨3, []⟩], .struct [.val .nil, .val (.int 5)], .struct [.val .nil, .val (.int 6)]]

def exSliceVal : UV := .seq [.ptr (.struct [.nil, .int 5])] [.ptr (.struct [.nil, .int 6])]

def exSliceDoc : J := .arr [.dict 0 [(b!"val", .int 7)], .dict 0 [(b!"next", .dict 0 [])]]

theorem exNode_rep (M : List HV) (n : Int) : (UV.struct [.nil, .int n]).Rep M (.struct [.val .nil, .val (.int n)]) [] := by
  rw [UV.Rep]
  refine ⟨_, rfl, ?_⟩
  rw [UV.Reps]
  refine ⟨_, _, [], [], rfl, rfl, by simp [UV.Rep], ?_⟩
  rw [UV.Reps]
  exact ⟨_, _, [], [], rfl, rfl, by simp [UV.Rep], by simp [UV.Reps]⟩

theorem exSlice_owns : Owns exSliceMem ⟨0, []⟩ exSliceVal [1, 2, 3] := by
  refine ⟨_, rfl, ?_, by decide⟩
  have one : ∀ (a : Nat) (n : Int), exSliceMem[a]? = some (.struct [.val .nil, .val (.int n)]) →
      UV.Reps exSliceMem [.ptr (.struct [.nil, .int n])] [.ptr ⟨a, []⟩] [a] := by
    intro a n h
    rw [UV.Reps]
    refine ⟨_, _, [a], [], rfl, rfl, ?_, by simp [UV.Reps]⟩
    rw [UV.Rep]
    exact ⟨_, _, [], rfl, by simp [memGet, h, HV.at], rfl, exNode_rep _ n⟩
  rw [exSliceVal, UV.Rep]
  exact ⟨1, _, _, [2], [3], rfl, rfl, rfl, one 2 5 rfl, one 3 6 rfl⟩

theorem exNode_typed (n : Int) (h1 : -2 ^ 63 ≤ n) (h2 : n < 2 ^ 63) : (UV.ptr (.struct [.nil, .int n])).HasTy exNodes.defs (.ptr (.struct 0)) := by
  rw [UV.HasTy]
  refine ⟨_, rfl, ?_⟩
  rw [UV.HasTy]
  refine ⟨_, _, rfl, rfl, ?_⟩
  rw [UV.HasTyf]
  refine ⟨_, _, _, rfl, trivial, ?_⟩
  rw [UV.HasTyf]
  exact ⟨_, _, _, rfl, ⟨by decide, by decide, h1, h2⟩, by simp [UV.HasTyf]⟩

/-- The hypotheses of C63 are met by a slice with room, of pointers to existing nodes. -/
example : exNodes.Ok ∧ exSliceDoc.WF ∧ NoResolved exSliceDoc.events ∧ (Ty.slice (.ptr (.struct 0))).Valid exNodes.defs ∧ Owns exSliceMem ⟨0, []⟩ exSliceVal [1, 2, 3] ∧
    exSliceVal.HasTy exNodes.defs (.slice (.ptr (.struct 0))) := by
  refine ⟨exNodes_ok, by simp [exSliceDoc, J.WF, J.WFs, J.WFf, SMap.Sorted, InI64, i64min, i64max], fun id h => ?_, Nat.zero_lt_one, exSlice_owns, ?_⟩
  · have : exSliceDoc.events = [] := by rfl
    rw [this] at h
    cases h
  · rw [exSliceVal, UV.HasTy]
    exact ⟨_, rfl, ⟨exNode_typed 5 (by decide) (by decide), trivial⟩, ⟨exNode_typed 6 (by decide) (by decide), trivial⟩⟩

/-- What happens then: the existing nodes are written to, the room is used, with what is in it; one node is new. -/
example : exSliceDoc.hunmarshal exNodes [] (.slice (.ptr (.struct 0))) ⟨0, []⟩ exSliceMem =
      some ([.seq 1 2, .arr [.ptr ⟨2, []⟩, .ptr ⟨3, []⟩], .struct [.val .nil, .val (.int 7)], .struct [.ptr ⟨4, []⟩, .val (.int 6)], .struct [.val .nil, .val (.int 0)]], none) ∧
    exSliceDoc.unmarshal exNodes [] (.slice (.ptr (.struct 0))) exSliceVal =
      some (.seq [.ptr (.struct [.nil, .int 7]), .ptr (.struct [.ptr (.struct [.nil, .int 0]), .int 6])] [], none) := ⟨by rfl, by rfl⟩

/-- **C63, sharing matters**: with `x := T{B: y, A: y}`, `{"a":{"a":{}}}` is written to `*y`, so that `x.B` changes too. -/
theorem C63_sharing :
    (J.dict 0 [(b!"a", .dict 0 [(b!"a", .dict 0 [])])]).hunmarshal exTwo [] (.struct 0) ⟨0, []⟩ [.struct [.ptr ⟨1, []⟩, .ptr ⟨1, []⟩], .struct [.val .nil, .val .nil]] =
      some ([.struct [.ptr ⟨1, []⟩, .ptr ⟨1, []⟩], .struct [.val .nil, .ptr ⟨2, []⟩], .struct [.val .nil, .val .nil]], none) := by rfl

/-- The hypotheses of C64 are met by a variable in a ring (`x.Next = y; y.Next = x`), with another object, 2, beside it: the document is written all around the ring, and not to object 2. -/
example : (J.dict 0 [(b!"next", .dict 0 [(b!"next", .dict 0 [(b!"val", .int 9)]), (b!"val", .int 8)])]).hunmarshal exNodes [] (.struct 0) ⟨0, []⟩
      [.struct [.ptr ⟨1, []⟩, .val (.int 1)], .struct [.ptr ⟨0, []⟩, .val (.int 2)], .struct [.ptr ⟨0, []⟩, .val (.int 3)]] =
    some ([.struct [.ptr ⟨1, []⟩, .val (.int 9)], .struct [.ptr ⟨0, []⟩, .val (.int 8)], .struct [.ptr ⟨0, []⟩, .val (.int 3)]], none) ∧
    ¬ Reaches [.struct [.ptr ⟨1, []⟩, .val (.int 1)], .struct [.ptr ⟨0, []⟩, .val (.int 2)], .struct [.ptr ⟨0, []⟩, .val (.int 3)]] 0 2 := by
  refine ⟨by rfl, fun h => ?_⟩
  have key : ∀ b, Reaches [.struct [.ptr ⟨1, []⟩, .val (.int 1)], .struct [.ptr ⟨0, []⟩, .val (.int 2)], .struct [.ptr ⟨0, []⟩, .val (.int 3)]] 0 b → b < 2 := by
    intro b h
    induction h with
    | here => decide
    | @step b o b' _ ho hb ih =>
      match b, ih with
      | 0, _ => cases ho; simp [HV.refs, HV.refss] at hb; omega
      | 1, _ => cases ho; simp [HV.refs, HV.refss] at hb; omega
  exact absurd (key 2 h) (by decide)

end Jsonutils.Props
