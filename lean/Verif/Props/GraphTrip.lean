import Verif.Proofs.GraphOrder
import Verif.Props.Graph
import Verif.Props.Marshal

/-!
# Pointer graphs through `Marshal` and `Unmarshal`: C62

`GraphTidy P h Θ oe text`: the memory `h` is a finite graph of typed variables, cyclic or not, that has nothing a round trip would lose
(`Spec/GraphRT.lean`).  `Looks P h Θ M R`: the locations of memory `M` related by `R` to the addresses of `h` cannot be told from
them by reading and following pointers.
-/

namespace Jsonutils.Props

variable {ord : SMap Bytes → List (Bytes × Bytes)} {pick : List Nat → Nat} {P : UEnv} {h : List GV} {Θ : Nat → Ty} {oe : Bool}

/-- **C62, a pointer.** `Marshal(p)` (and `MarshalAll`) of a pointer to a struct or map in a pointer graph, cyclic or not, returns a document; `Unmarshal` of the document into a zero
variable at `l` of the type of `*p` succeeds, changes nothing but the variable, and the variable then looks like `*p`: the same values, and pointers to the same in turn, without end;
unless the document has a reference before its dictionary: then `Unmarshal` panics. -/
theorem C62_pointer (hord : ∀ dep, (ord dep).Perm dep) (hpick : ∀ l, l ≠ [] → pick l ∈ l) (hOk : P.Ok) (hP : P.RoundTrips false) (hG : GraphTidy P h Θ oe false)
    {a : Nat} {g : GV} (ha : h[a]? = some g) (hn : g.IsNode) {n : Nat} (hf : h.length ≤ n) :
    ∃ j, marshal ord pick oe h n (.ptr a) = some j ∧ ∀ (l : Loc) (M : List HV), memGet M l = some (P.hzero (Θ a)) →
      (NoForward j.events → ∃ c new R, j.hunmarshal P [] (Θ a) l M = some (memSet M l c ++ new, none) ∧ Looks P h Θ (memSet M l c ++ new) R ∧ R a l) ∧
      (¬ NoForward j.events → j.hunmarshal P [] (Θ a) l M = none) := by
  have hT : g.Target := by cases g <;> first | trivial | exact (show False from hn).elim
  have ht : (GV.ptr a).HasTy P Θ (.ptr (Θ a)) := by rw [GV.HasTy]
  have hy : (GV.ptr a).Tidy P h oe false (.ptr (Θ a)) := by rw [GV.Tidy]; exact ⟨g, ha, hT⟩
  obtain ⟨j, hj⟩ := C43_terminates (pick := pick) (oe := oe) hord (tidy_graphClean hP hG ht hy).2 hf
  exact ⟨j, hj, fun l M hz => trip_ptr hord hpick hOk hP hG ha hn hj hz⟩

/-- **C62, a value.** The same for a struct, map, slice or array given to `Marshal` by value. -/
theorem C62_value (hord : ∀ dep, (ord dep).Perm dep) (hpick : ∀ l, l ≠ [] → pick l ∈ l) (hOk : P.Ok) (hP : P.RoundTrips false) (hG : GraphTidy P h Θ oe false)
    {g : GV} {t : Ty} (hR : g.Root) (ht : g.HasTy P Θ t) (hr : t.RoundTrips false) (hy : g.Tidy P h oe false t) {n : Nat} (hf : h.length ≤ n) :
    ∃ j, marshal ord pick oe h n g = some j ∧ ∀ (l : Loc) (M : List HV), memGet M l = some (P.hzero t) →
      (NoForward j.events → ∃ c new R, j.hunmarshal P [] t l M = some (memSet M l c ++ new, none) ∧ Looks P h Θ (memSet M l c ++ new) R ∧ g.Shown P Θ R (memSet M l c ++ new) t c) ∧
      (¬ NoForward j.events → j.hunmarshal P [] t l M = none) := by
  obtain ⟨j, hj⟩ := C43_terminates (pick := pick) (oe := oe) hord (tidy_graphClean hP hG ht hy).2 hf
  exact ⟨j, hj, fun l M hz => trip_val hord hpick hOk hP hG hR ht hr hy hj hz⟩

/-- **C62, fields in order.** If all structs declare their fields in the order of their keys, no reference comes before its dictionary. -/
theorem C62_no_forward (hord : ∀ dep, (ord dep).Perm dep) (hpick : ∀ l, l ≠ [] → pick l ∈ l) {text : Bool} (hP : P.RoundTrips text) (hO : P.FieldsInOrder) (hG : GraphTidy P h Θ oe text)
    {g : GV} {t : Ty} (ht : g.HasTy P Θ t) (hy : g.Tidy P h oe text t) {n : Nat} {j : J} (hm : marshal ord pick oe h n g = some j) : NoForward j.events :=
  marshal_noForward hord hpick hP hO hG ht hy hm

/-- **C62, the whole trip, through the text.** With fields in order, `Marshal(p)` returns, its text parses, and `Unmarshal` of what was parsed
makes a zero variable look like `*p`. -/
theorem C62_text (hord : ∀ dep, (ord dep).Perm dep) (hpick : ∀ l, l ≠ [] → pick l ∈ l) (hOk : P.Ok) (hP : P.RoundTrips true) (hO : P.FieldsInOrder) (hG : GraphTidy P h Θ oe true)
    (hv : ∀ x ∈ h, x.Ok) {a : Nat} {g : GV} (ha : h[a]? = some g) (hn : g.IsNode) {n : Nat} (hf : h.length ≤ n) :
    ∃ j, marshal ord pick oe h n (.ptr a) = some j ∧ ((∀ id ∈ j.nodeIds, InI64 id) → ∃ j', parse j.toBytes = .ok j' ∧
      ∀ (l : Loc) (M : List HV), memGet M l = some (P.hzero (Θ a)) →
        ∃ c new R, j'.hunmarshal P [] (Θ a) l M = some (memSet M l c ++ new, none) ∧ Looks P h Θ (memSet M l c ++ new) R ∧ R a l) := by
  have hT : g.Target := by cases g <;> first | trivial | exact (show False from hn).elim
  have ht : (GV.ptr a).HasTy P Θ (.ptr (Θ a)) := by rw [GV.HasTy]
  have hy : (GV.ptr a).Tidy P h oe true (.ptr (Θ a)) := by rw [GV.Tidy]; exact ⟨g, ha, hT⟩
  obtain ⟨hc, hok⟩ := tidy_graphClean hP hG ht hy
  obtain ⟨j, hj⟩ := C43_terminates (pick := pick) (oe := oe) hord hok hf
  exact ⟨j, hj, fun hid => ⟨j.reread, C43_reparse hord hpick hc ⟨trivial, hv⟩ hj hid,
    fun l M hz => (trip_ptr hord hpick hOk hP hG ha hn hj hz).1 (C62_no_forward hord hpick hP hO hG ht hy hj)⟩⟩

/-! ### Examples -/

/-- A ring of two nodes in memory: `a.Next = b; b.Next = a`. -/
def exRingHeap : List GV :=
  [.struct [({ name := b!"next" }, .ptr 1), ({ name := b!"val" }, .leaf (.int 1))],
   .struct [({ name := b!"next" }, .ptr 0), ({ name := b!"val" }, .leaf (.int 2))]]

theorem exNodes_ok : exNodes.Ok := by
  refine ⟨exNodes_wf, ?_, ?_⟩
  · intro n fs h i t ht
    match n with
    | 0 =>
      simp only [exNodes, List.getElem?_cons_zero, Option.some.injEq] at h
      subst h
      simp only [List.mem_cons, Prod.mk.injEq, List.not_mem_nil, or_false] at ht
      rcases ht with ⟨_, rfl⟩ | ⟨_, rfl⟩
      · exact Nat.zero_lt_one
      · trivial
    | n + 1 => simp [exNodes] at h
  · intro n fs h k i hi
    match n with
    | 0 =>
      simp only [exNodes, List.getElem?_cons_zero, Option.some.injEq] at h
      subst h
      simp only [exNodes] at hi
      split at hi
      · simp at hi; subst hi; decide
      · split at hi
        · simp at hi; subst hi; decide
        · cases hi
    | n + 1 => simp [exNodes] at h

theorem exNodes_roundTrips (text : Bool) : exNodes.RoundTrips text := by
  refine ⟨exNodes_wf, fun n fs h => ?_⟩
  match n with
  | 0 =>
    simp only [exNodes, List.getElem?_cons_zero, Option.some.injEq] at h
    subst h
    refine ⟨by unfold DistinctNames; decide, fun k i t hk _ => ?_⟩
    match k with
    | 0 => simp at hk; obtain ⟨rfl, rfl⟩ := hk; exact ⟨⟨trivial, trivial⟩, rfl, rfl, rfl⟩
    | 1 => simp at hk; obtain ⟨rfl, rfl⟩ := hk; exact ⟨trivial, rfl, rfl, by decide⟩
    | k + 2 => simp at hk
  | n + 1 => simp [exNodes] at h

theorem exNodes_inOrder : exNodes.FieldsInOrder := by
  intro n fs h
  match n with
  | 0 =>
    simp only [exNodes, List.getElem?_cons_zero, Option.some.injEq] at h
    subst h
    decide
  | n + 1 => simp [exNodes] at h

theorem exRing_tidy (oe text : Bool) : GraphTidy exNodes exRingHeap (fun _ => .struct 0) oe text := by
  have node : ∀ (a : Nat) (v : Int) (g : GV), exRingHeap[a]? = some g → g.Target → InI64 v → v ≠ 0 →
      (GV.struct [({ name := b!"next" }, .ptr a), ({ name := b!"val" }, .leaf (.int v))]).HasTy exNodes (fun _ => .struct 0) (.struct 0) ∧
      (GV.struct [({ name := b!"next" }, .ptr a), ({ name := b!"val" }, .leaf (.int v))]).Tidy exNodes exRingHeap oe text (.struct 0) := by
    intro a v g ha hT hv hv0
    constructor
    · rw [GV.HasTy]
      refine ⟨0, _, rfl, rfl, ?_⟩
      rw [GV.HasTyf]
      refine ⟨_, _, rfl, by rw [GV.HasTy], ?_⟩
      rw [GV.HasTyf]
      refine ⟨_, _, rfl, ?_, by rw [GV.HasTyf]⟩
      rw [GV.HasTy]
      have h2 : v < 2 ^ 63 := Int.lt_of_le_of_lt hv.2 (by decide)
      refine ⟨trivial, .int v, ⟨by decide, by decide, hv.1, h2⟩, ?_⟩
      rw [UV.toTV, wrapI_range 64 (by decide) v hv.1 h2]
    · rw [GV.Tidy]
      show GV.Tidyf _ _ _ _ _ [_, _]
      rw [GV.Tidyf, GV.Tidyf]
      refine ⟨?_, ?_, ?_, ?_, ?_⟩
      · rintro (h | ⟨_, tv, q2, q3⟩)
        · cases h
        · exfalso
          cases q2 with
          | ptr e1 e2 =>
            rw [ha] at e1; cases e1
            match a, ha with
            | 0, ha => cases ha; cases e2 with | struct _ => exact absurd q3.2 (by decide)
            | 1, ha => cases ha; cases e2 with | struct _ => exact absurd q3.2 (by decide)
            | a + 2, ha => simp [exRingHeap] at ha
      · rw [GV.Tidy]; exact ⟨g, ha, hT⟩
      · rintro (h | ⟨_, tv, q2, q3⟩)
        · cases h
        · exfalso
          cases q2
          exact absurd q3.1 hv0
      · rw [GV.Tidy]; intro _; trivial
      · simp [GV.Tidyf]
  intro a g ha
  match a with
  | 0 => cases ha; obtain ⟨h1, h2⟩ := node 1 1 _ rfl trivial (by decide) (by decide); exact ⟨h1, trivial, h2⟩
  | 1 => cases ha; obtain ⟨h1, h2⟩ := node 0 2 _ rfl trivial (by decide) (by decide); exact ⟨h1, trivial, h2⟩
  | a + 2 => simp [exRingHeap] at ha

/-- The hypotheses of C62 are met by the ring. -/
example : exNodes.Ok ∧ exNodes.RoundTrips true ∧ exNodes.FieldsInOrder ∧ GraphTidy exNodes exRingHeap (fun _ => .struct 0) true true ∧ (∀ x ∈ exRingHeap, x.Ok) ∧
    (∃ g, exRingHeap[0]? = some g ∧ g.IsNode) ∧ memGet [exNodes.hzero (.struct 0)] ⟨0, []⟩ = some (exNodes.hzero (.struct 0)) := by
  refine ⟨exNodes_ok, exNodes_roundTrips true, exNodes_inOrder, exRing_tidy true true, ?_, ⟨_, rfl, trivial⟩, rfl⟩
  intro x hx
  simp only [exRingHeap, List.mem_cons, List.not_mem_nil, or_false] at hx
  rcases hx with rfl | rfl
  · refine ⟨by decide, trivial, by decide, ?_, trivial⟩; exact (by decide : InI64 1)
  · refine ⟨by decide, trivial, by decide, ?_, trivial⟩; exact (by decide : InI64 2)

/-- There and back: what `Marshal` makes of the ring, and the memory after `Unmarshal`. -/
example : marshal id List.head! true exRingHeap 2 (.ptr 0) = some (.dict 1 [(b!"next", .dict 2 [(b!"next", .ptr 1), (b!"val", .int 2)]), (b!"val", .int 1)]) ∧
    (J.dict 1 [(b!"next", .dict 2 [(b!"next", .ptr 1), (b!"val", .int 2)]), (b!"val", .int 1)]).hunmarshal exNodes [] (.struct 0) ⟨0, []⟩ [exNodes.hzero (.struct 0)] =
    some ([.struct [.ptr ⟨1, []⟩, .val (.int 1)], .struct [.ptr ⟨0, []⟩, .val (.int 2)]], none) := ⟨by rfl, by rfl⟩

/-- **C62, sharing without a cycle is lost**: `Marshal(T{B: y, A: y})` writes `*y` twice, and `Unmarshal` makes two variables of it: afterwards `x.A != x.B`. -/
theorem C62_sharing_lost :
    marshal id List.head! false [.struct [({ name := b!"b" }, .leaf .nil), ({ name := b!"a" }, .leaf .nil)]] 1
      (.struct [({ name := b!"b" }, .ptr 0), ({ name := b!"a" }, .ptr 0)]) =
      some (.dict 0 [(b!"a", .dict 0 [(b!"a", .null), (b!"b", .null)]), (b!"b", .dict 0 [(b!"a", .null), (b!"b", .null)])]) ∧
    (J.dict 0 [(b!"a", .dict 0 [(b!"a", .null), (b!"b", .null)]), (b!"b", .dict 0 [(b!"a", .null), (b!"b", .null)])]).hunmarshal exTwo [] (.struct 0) ⟨0, []⟩ [exTwo.hzero (.struct 0)] =
      some ([.struct [.ptr ⟨2, []⟩, .ptr ⟨1, []⟩], .struct [.val .nil, .val .nil], .struct [.val .nil, .val .nil]], none) :=
  ⟨by rfl, by rfl⟩

end Jsonutils.Props
