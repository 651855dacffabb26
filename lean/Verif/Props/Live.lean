import Verif.Proofs.Live
import Verif.Props.Marshal

/-!
# Live references: C65

`marshalLive ord pick oe h n g = some (j, D)`: `Marshal(g)` (`MarshalAll(g)` for `¬oe`) of a value `g` in a memory `h` returns the
document `j`; the references in it hold the dictionaries `D id`.
-/

namespace Jsonutils.Props

variable {ord : SMap Bytes → List (Bytes × Bytes)} {pick : List Nat → Nat} {oe : Bool} {h : List GV} {g : GV} {n : Nat} {j : J} {D : Int → Option J}

/-- The document is what `Marshal` returns. -/
theorem C65_doc : (marshalLive ord pick oe h n g).map (·.1) = marshal ord pick oe h n g := by
  unfold marshalLive marshal
  cases gmar ord oe h n g .init none with
  | none => rfl
  | some r => obtain ⟨s, m⟩ := r; cases m <;> rfl

/-- **C65, the document is the graph.** The result for a clean graph, cyclic or not, stands for the graph for ever: seen through
the accessors, with references followed, every step leads to what the same step in the graph leads to. (Or nothing is left: the
whole value is empty and the call is `Marshal`.) -/
theorem C65_mirror (hord : ∀ dep, (ord dep).Perm dep) (hg : GraphClean h g) (hm : marshalLive ord pick oe h n g = some (j, D)) :
    (∃ R, Mirrors h oe R D ∧ R j g) ∨ (oe = true ∧ EmptyV h g none ∧ j = .null) := by
  rcases marshalLive_run hord hg hm with ⟨h1, h2, _⟩ | ⟨m, s, Dg, hr⟩
  · exact .inr ⟨h1.1, h1.2, h2⟩
  · exact .inl ⟨_, hr.mirrors, m, .refl _, hr.doc, hr.mir⟩

/-- **C65, paths.** Every path in the graph, of any length and round the cycles as often as one likes, can be taken in the
result of `MarshalAll`, one call for each step, and leads to the same value: the same scalar, an array of the same length,
or a dictionary with the same keys. -/
theorem C65_paths (hord : ∀ dep, (ord dep).Perm dep) (hg : GraphClean h g) (hm : marshalLive ord pick false h n g = some (j, D))
    {p : List Sel} {x : GV} (hp : GoNav h g p x) : ∃ y, docNav D j p = some y ∧ Stands h D y x := by
  rcases C65_mirror hord hg hm with ⟨R, h1, h2⟩ | ⟨h0, _⟩
  · obtain ⟨y, h3, h4⟩ := mirrors_nav h1 hp h2
    exact ⟨y, h3, mirrors_stands h1 h4⟩
  · cases h0

/-- **C65, `Interface()` of a result with references does not return** (Go: stack overflow): every reference is inside the
dictionary it refers to, or leads to one that is. Without references it does return. -/
theorem C65_interface (hord : ∀ dep, (ord dep).Perm dep) (hpick : ∀ l, l ≠ [] → pick l ∈ l) (hg : GraphClean h g)
    (hm : marshalLive ord pick oe h n g = some (j, D)) :
    ((∃ f i, j.interfaceL D f = some i) ↔ j.ptrIds = []) ∧ ∀ f i, j.interfaceL D f = some i → i = j.interface := by
  rcases marshalLive_run hord hg hm with ⟨_, rfl, _⟩ | ⟨m, s, Dg, hr⟩
  · refine ⟨⟨fun _ => rfl, fun _ => ⟨1, _, rfl⟩⟩, fun f i hf => ?_⟩
    cases f with
    | zero => cases hf
    | succ f => cases hf; rfl
  · have key : ∀ f i, j.interfaceL D f = some i → j.ptrIds = [] := by
      intro f i hf
      rw [hr.ptrIds hpick]
      by_cases hn : m.refs = []
      · exact hn
      · rw [hr.doc, hr.interface_none f m (.refl _) hn] at hf; cases hf
    refine ⟨⟨fun ⟨f, i, hf⟩ => key f i hf, fun hp => ?_⟩, fun f i hf => ?_⟩
    · obtain ⟨f, h1⟩ := interface_plain D j hp
      exact ⟨f, _, h1 f (Nat.le_refl _)⟩
    · obtain ⟨f', h1⟩ := interface_plain D j (key f i hf)
      exact interface_det D (h1 f' (Nat.le_refl _)) hf

/-- **C65, a result with a reference does not equal itself.** -/
theorem C65_equals (hord : ∀ dep, (ord dep).Perm dep) (hpick : ∀ l, l ≠ [] → pick l ∈ l) (hg : GraphClean h g)
    (hm : marshalLive ord pick oe h n g = some (j, D)) (hp : j.ptrIds ≠ []) : j.equalsL D j = false := by
  rcases marshalLive_run hord hg hm with ⟨_, rfl, _⟩ | ⟨m, s, Dg, hr⟩
  · exact absurd rfl hp
  · rw [hr.doc]
    exact hr.equals_self m (.refl _) fun h => hp ((hr.ptrIds hpick).2 h)

/-- **C65, one call or many.** A path taken in one call `Get(k1, …, kn)` of a dictionary can be taken step by step with the same result;
the converse fails only with `ErrInvalidJsonDict`, and only if the path leads through a reference: these are not followed
within a call. -/
theorem C65_one_call (D : Int → Option J) (i : Int) (kvs : SMap J) {ks : List Bytes} (hk : ks ≠ []) :
    (∀ y, (J.dict i kvs).getL D ks = .ok y → docNav D (.dict i kvs) (ks.map .key) = some y) ∧
    ∀ y, docNav D (.dict i kvs) (ks.map .key) = some y → (J.dict i kvs).getL D ks = .ok y ∨
      ((J.dict i kvs).getL D ks = .err .invalidDict ∧
        ∃ p q id, p ≠ [] ∧ q ≠ [] ∧ ks = p ++ q ∧ docNav D (.dict i kvs) (p.map .key) = some (.ptr id)) := by
  have : (J.dict i kvs).getL D ks = getLoop smGet kvs ks := by
    cases ks with
    | nil => exact absurd rfl hk
    | cons => rfl
  rw [this]
  exact getLoop_steps D ks i kvs hk

/-- **C65, a reference answers as its dictionary.** -/
theorem C65_delegates {id : Int} {d : J} (hd : D id = some d) (hdict : ∃ i kvs, d = .dict i kvs) :
    (∀ ks, (J.ptr id).getL D ks = d.getL D ks) ∧ (∀ i ks, (J.ptr id).getAtL D i ks = d.getAtL D i ks) ∧
    (∀ ks, (J.ptr id).getMapL D ks = d.getMapL D ks) ∧ (∀ ks, (J.ptr id).getArrayL D ks = d.getArrayL D ks) ∧
    (∀ ks, (J.ptr id).getStringL D ks = d.getStringL D ks) ∧
    (∀ {α : Type} (own : J → Option (Res α)) f ks, (J.ptr id).scalarAccL D own f ks = d.scalarAccL D own f ks) ∧
    (J.ptr id).isZeroL D = d.isZeroL D ∧ (∀ w, (J.ptr id).equalsL D w = d.equalsL D w) ∧
    ∀ f i, (J.ptr id).interfaceL D (f + 1) = some i ↔ d.interfaceL D f = some i := by
  obtain ⟨i, kvs, rfl⟩ := hdict
  have hl : (J.ptr id).live D = (J.dict i kvs).live D := by simp [J.live, hd]
  refine ⟨fun ks => ?_, fun _ ks => ?_, fun ks => ?_, fun ks => ?_, fun ks => ?_, fun own f ks => ?_, ?_, fun w => ?_, fun f i => ?_⟩
  · simp only [J.getL, hl]
  · simp only [J.getAtL, hl]
  · simp only [J.getMapL, hl]
  · simp only [J.getArrayL, hl]
  · simp only [J.getStringL, hl]
  · cases f <;> simp only [J.scalarAccL, hl]
  · simp only [J.isZeroL, hl]
  · cases w <;> simp only [J.equalsL, hl]
  · rw [J.interfaceL]; simp [hd]

/-- **C65, accessors with a path.** On a dictionary (and so, by C65_delegates, on a reference), an accessor called with keys is `Get` with
these keys and the accessor without keys of what is found there; a reference at the end of the path is followed. -/
theorem C65_at_path (D : Int → Option J) (i : Int) (kvs : SMap J) (k : Bytes) (ks : List Bytes) :
    (∀ o, (J.dict i kvs).getL D (k :: ks) = .ok o →
      (J.dict i kvs).getStringL D (k :: ks) = o.getStringL D [] ∧ (J.dict i kvs).getArrayL D (k :: ks) = o.getArrayL D [] ∧
      (∀ {α : Type} (own : J → Option (Res α)) f, (J.dict i kvs).scalarAccL D own (f + 1) (k :: ks) = o.scalarAccL D own f [])) ∧
    (∀ e, (J.dict i kvs).getL D (k :: ks) = .err e →
      (J.dict i kvs).getStringL D (k :: ks) = .err e ∧ (J.dict i kvs).getArrayL D (k :: ks) = .err e ∧
      (∀ {α : Type} (own : J → Option (Res α)) f, (J.dict i kvs).scalarAccL D own (f + 1) (k :: ks) = .err e)) := by
  have hl : (J.dict i kvs).live D = .dict i kvs := rfl
  have hg : (J.dict i kvs).getL D (k :: ks) = dictGet smGet i kvs (k :: ks) := rfl
  rw [hg]
  refine ⟨fun o ho => ⟨?_, ?_, fun own f => ?_⟩, fun e he => ⟨?_, ?_, fun own f => ?_⟩⟩
  · have : (J.dict i kvs).getStringL D (k :: ks) = .ok (o.live D).string0 := by simp only [J.getStringL, hl, ho]
    rw [this, J.getStringL]
    cases o.live D <;> simp [J.getString]
  · have : (J.dict i kvs).getArrayL D (k :: ks) = (o.live D).array0 := by simp only [J.getArrayL, hl, ho]
    rw [this, J.getArrayL]
    cases o.live D <;> simp [J.getArray, J.array0, dictGet, J.live]
  · rw [J.scalarAccL.eq_def]; simp only [J.live, ho]
  · simp only [J.getStringL, J.live, he]
  · simp only [J.getArrayL, J.live, he]
  · rw [J.scalarAccL.eq_def]; simp only [J.live, he]

theorem scalarAccL_none {α : Type} (own : J → Option (Res α)) (hown : ∀ id, own (.ptr id) = own .null) :
    ∀ (f : Nat) (v : J) (ks : List Bytes), v.scalarAccL (fun _ => none) own f ks = v.scalarAcc own f ks := by
  intro f
  induction f with
  | zero => intro v ks; rfl
  | succ f ih =>
    intro v ks
    cases v with
    | dict i kvs =>
      simp only [J.scalarAccL, J.live, J.scalarAcc]
      cases dictGet smGet i kvs ks with
      | ok o => exact ih o []
      | _ => rfl
    | ptr id =>
      simp only [J.scalarAccL, J.live, J.scalarAcc, Option.getD_none, hown]
      cases own .null with
      | none => rfl
      | some r => cases ks <;> rfl
    | _ => rfl

/-- **C65, references of parsed documents hold nothing**, and all accessors are those of C22, C23. -/
theorem C65_unresolved (v : J) : (∀ ks, v.getL (fun _ => none) ks = v.get ks) ∧ (∀ i ks, v.getAtL (fun _ => none) i ks = v.getAt i ks) ∧
    (∀ ks, v.getMapL (fun _ => none) ks = v.getMap ks) ∧ (∀ ks, v.getArrayL (fun _ => none) ks = v.getArray ks) ∧
    (∀ ks, v.getStringL (fun _ => none) ks = v.getString ks) ∧ v.isZeroL (fun _ => none) = v.isZero ∧
    (∀ w, v.WF → w.WF → v.equalsL (fun _ => none) w = v.equals w) ∧
    ∀ {α : Type} (own : J → Option (Res α)), (∀ id, own (.ptr id) = own .null) → ∀ f ks, v.scalarAccL (fun _ => none) own f ks = v.scalarAcc own f ks := by
  refine ⟨fun ks => ?_, fun _ ks => ?_, fun ks => ?_, fun ks => ?_, fun ks => ?_, ?_, fun w => equalsL_none w v, fun own hown f ks => scalarAccL_none own hown f v ks⟩
  · cases v <;> rfl
  · cases v <;> rfl
  · cases v <;> rfl
  · cases v with
    | dict i kvs =>
      simp only [J.getArrayL, J.live, J.getArray]
      cases dictGet smGet i kvs ks with
      | ok o => cases o <;> rfl
      | _ => rfl
    | _ => rfl
  · cases v with
    | dict i kvs =>
      cases ks with
      | nil => rfl
      | cons k ks =>
        simp only [J.getStringL, J.live, J.getString]
        cases dictGet smGet i kvs (k :: ks) with
        | ok o => cases o <;> rfl
        | _ => rfl
    | _ => cases ks <;> rfl
  · cases v <;> rfl

/-- **C43, ids belong to cycles.** In the result for a clean graph every dictionary with a node id has a reference inside. (So values
that are shared, but not part of or on the way into a cycle, are written out each time, without ids.) -/
theorem C43_id_has_ref (hord : ∀ dep, (ord dep).Perm dep) (hpick : ∀ l, l ≠ [] → pick l ∈ l) (hg : GraphClean h g)
    (hm : marshal ord pick oe h n g = some j) : j.IdHasRef := by
  rw [← C65_doc] at hm
  obtain ⟨⟨j', D⟩, hm2, rfl⟩ := Option.map_eq_some_iff.1 hm
  rcases marshalLive_run hord hg hm2 with ⟨_, rfl, _⟩ | ⟨m, s, Dg, hr⟩
  · trivial
  · have := finish_idHasRef s hpick m hr.single hr.anch
    rw [← hr.doc] at this
    exact this

/-! ### Examples -/

/-- The references of the two structs that point at each other, and of the third that holds the first twice (see C43). -/
theorem C65_example : ∃ D, marshalLive id List.head! false exCyclic 2 exRoot =
      some (.dict 0 [(b!"p", .dict 1 [(b!"next", .dict 2 [(b!"next", .ptr 1)])]), (b!"q", .ptr 1)], D) ∧
    D 1 = some (.dict 1 [(b!"next", .dict 2 [(b!"next", .ptr 1)])]) := ⟨_, rfl, rfl⟩

/-- In it `q.next.next.next` can be reached in four calls … -/
example : ∃ j D, marshalLive id List.head! false exCyclic 2 exRoot = some (j, D) ∧
    docNav D j [.key b!"q", .key b!"next", .key b!"next", .key b!"next"] = some (.dict 2 [(b!"next", .ptr 1)]) ∧
    GoNav exCyclic exRoot [.key b!"q", .key b!"next", .key b!"next", .key b!"next"] (.ptr 1) ∧
    j.getL D [b!"q", b!"next"] = .err .invalidDict ∧ j.ptrIds ≠ [] := by
  refine ⟨_, _, rfl, rfl, ?_, rfl, by decide⟩
  refine .field (x1 := .ptr 0) (i := { name := b!"q" }) (.struct _) (by simp) rfl ?_
  refine .field (x1 := .ptr 1) (i := { name := b!"next" }) (.ptr rfl (.struct _)) (by simp) rfl ?_
  refine .field (x1 := .ptr 0) (i := { name := b!"next" }) (.ptr rfl (.struct _)) (by simp) rfl ?_
  exact .field (x1 := .ptr 1) (i := { name := b!"next" }) (.ptr rfl (.struct _)) (by simp) rfl .here

end Jsonutils.Props
