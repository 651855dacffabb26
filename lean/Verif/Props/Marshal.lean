import Verif.Proofs.MarshalBare
import Verif.Proofs.Quoted
import Verif.Proofs.MarshalDet
import Verif.Proofs.Stream

/-!
# Marshal: C39, C40, C43, C55

`marshal ord pick oe h fuel v`: `Marshal(v)` for `oe`, `MarshalAll(v)` for `¬oe`, of a value `v` in a memory `h`.
`ord` and `pick` stand for the iteration orders of Go maps; `none` means that the call has not returned within `fuel`
nested dereferences.
-/

namespace Jsonutils.Props

variable {ord : SMap Bytes → List (Bytes × Bytes)} {pick : List Nat → Nat}

/-! ## C39 -/

/-- **C39, what holds.** Marshalling a slice marshals every element by itself; an element contributes nothing exactly if
it is empty and the call is `Marshal`, and the remaining ones keep their order. -/
theorem C39_slice {oe : Bool} {h : List GV} {xs : List GV} (hac : Acyclic h (.seq xs)) {n : Nat} {j : J}
    (hm : marshal ord pick oe h n (.seq xs) = some j) :
    ∃ js : List (Option J), js.length = xs.length ∧ j = .arr (js.filterMap id) ∧
      ∀ (i : Nat) x, xs[i]? = some x → ∃ o, js[i]? = some o ∧ (o = none ↔ oe = true ∧ x.IsEmpty h none) ∧
        ∀ v, o = some v → ∃ n', marshal ord pick oe h n' x = some v := by
  obtain ⟨t, hu⟩ := hac
  obtain ⟨o, ho, hj⟩ := marshal_tree hu hm
  cases hu with
  | seq hs =>
    rename_i ts
    simp only [TV.mar] at ho
    rw [if_neg (by simp [optEmpty])] at ho
    split at ho
    · cases ho
    · rename_i ys hys
      cases ho
      unfold forceJ at hj
      rw [if_neg (by simp [optForce])] at hj
      subst hj
      obtain ⟨js, h1, h2, h3⟩ := mars_spec ts ys hys
      obtain ⟨h4, h5⟩ := unfs_get hs
      refine ⟨js, by rw [h1, h4], by rw [h2]; rfl, fun i x hx => ?_⟩
      obtain ⟨t, ht, hut⟩ := h5 i x hx
      obtain ⟨o, ho, hto⟩ := h3 i t ht
      refine ⟨o, ho, ?_, ?_⟩
      · rw [mar_none_iff t none o hto]
        constructor
        · rintro ⟨a, b⟩; exact ⟨a, t, hut, b⟩
        · rintro ⟨a, t', b, c⟩; rw [unf_fun b hut] at c; exact ⟨a, c⟩
      · rintro v rfl
        exact tree_marshal hut hto

/-- **C39, true for `MarshalAll`** (in cyclic memory too): the array is as long as the slice; on acyclic values element i
is the i-th element marshalled. -/
theorem C39_marshalAll_length {h : List GV} {xs : List GV} {n : Nat} {j : J} (hm : marshal ord pick false h n (.seq xs) = some j) :
    ∃ ys, j = .arr ys ∧ ys.length = xs.length ∧
      (Acyclic h (.seq xs) → ∀ (i : Nat) x, xs[i]? = some x → ∃ v n', ys[i]? = some v ∧ marshal ord pick false h n' x = some v) := by
  have hm0 := hm
  unfold marshal at hm
  rw [gmar_gd] at hm
  simp only [GV.mar] at hm
  rw [if_neg (by simp)] at hm
  cases hr : GV.mars ord false (gd ord false h n) xs .init with
  | none => rw [hr] at hm; cases hm
  | some r =>
    obtain ⟨s', ys⟩ := r
    rw [hr] at hm
    simp only [forceStr, optForce, Bool.false_eq_true, if_false] at hm
    simp only [MJ.finish, finishs_map] at hm
    cases hm
    refine ⟨_, rfl, ?_, ?_⟩
    · rw [List.length_map]; exact mars_length _ _ _ _ hr
    · intro hac i x hx
      obtain ⟨js, h1, h2, h3⟩ := C39_slice hac hm0
      have hall : ∀ o ∈ js, o ≠ none := by
        intro o ho
        obtain ⟨i, hi⟩ := List.getElem?_of_mem ho
        have hlt : i < xs.length := by
          rw [← h1]
          rcases Nat.lt_or_ge i js.length with h | h
          · exact h
          · rw [List.getElem?_eq_none h] at hi; cases hi
        obtain ⟨o', ho', h4, _⟩ := h3 i xs[i] (List.getElem?_eq_getElem hlt)
        rw [hi] at ho'; cases ho'
        rw [ne_eq, h4]; simp
      obtain ⟨o, ho, h4, h5⟩ := h3 i x hx
      have hget : ∀ (l : List (Option J)), (∀ o ∈ l, o ≠ none) → ∀ (i : Nat) o, l[i]? = some o → (l.filterMap id)[i]? = o := by
        intro l
        induction l with
        | nil => intro _ i o h; simp at h
        | cons a l ih =>
          intro hne i o hi
          cases a with
          | none => exact absurd rfl (hne none (by simp))
          | some a =>
            cases i with
            | zero => simp only [List.getElem?_cons_zero, Option.some.injEq] at hi; subst hi; rfl
            | succ i =>
              simp only [List.getElem?_cons_succ] at hi
              simp only [List.filterMap_cons_some (f := id) (rfl : id (some a) = some a), List.getElem?_cons_succ]
              exact ih (fun o ho => hne o (by simp [ho])) i o hi
      have h6 := hget js hall i o ho
      simp only [J.arr.injEq] at h2
      cases o with
      | none => exact absurd rfl (hall none (List.mem_of_getElem? ho))
      | some v =>
        obtain ⟨n', hn'⟩ := h5 v rfl
        exact ⟨v, n', by rw [h2]; exact h6, hn'⟩

/-- **C39, FALSE for `Marshal`.** A slice of two pointers, the first nil: the array has one element, and it holds the
second. -/
theorem C39_nil_dropped (n : Nat) : marshal ord pick true [.leaf (.int 7)] (n + 1) (.seq [.leaf .nil, .ptr 0]) = some (.arr [.int 7]) := by
  refine marshal_mono (n := 1) (by omega) ?_
  rfl

example : Acyclic [.leaf (.int 7)] (.seq [.leaf .nil, .ptr 0]) :=
  ⟨_, .seq (.cons (.leaf _) (.cons (.ptr rfl (.leaf _)) .nil))⟩

/-! ## C40 -/

/-- **C40, what a struct becomes.** On acyclic values with distinct field names: the key of a proper field is missing
exactly if the field is empty and the call is `Marshal`; otherwise it holds what the field's value
marshals to by itself, or with the option `string` that as a text (`Quoted`). A deprecated field is written exactly like the field at the end of its chain. There are no other
keys. -/
theorem C40_struct (hord : ∀ dep, (ord dep).Perm dep) {oe : Bool} {h : List GV} {fs : List (FInfo × GV)} (hd : DistinctNames fs)
    (hac : Acyclic h (.struct fs)) {n : Nat} {j : J} (hm : marshal ord pick oe h n (.struct fs) = some j) :
    ∃ m, j = .dict 0 m ∧
      (∀ i x, (i, x) ∈ fs → i.Proper →
        (smGet m i.name = none ↔ oe = true ∧ x.IsEmpty h (some i)) ∧
        (i.forceString = false → ∀ v, smGet m i.name = some v → ∃ n', marshal ord pick oe h n' x = some v) ∧
        (i.forceString = true → ∀ v, smGet m i.name = some v → ∃ n' w, marshal ord pick oe h n' x = some w ∧ Quoted h x w v)) ∧
      (∀ i x k e, (i, x) ∈ fs → i.ignore = false → i.deprecatedBy = some k → DepEnd (depMap fs) k e → smGet m i.name = smGet m e) ∧
      (∀ k v, smGet m k = some v → ∃ i x, (i, x) ∈ fs ∧ i.ignore = false ∧ i.name = k) ∧
      (∀ i x k, (i, x) ∈ fs → i.ignore = false → i.deprecatedBy = some k → (¬ ∃ e, DepEnd (depMap fs) k e) → smGet m i.name = none) := by
  obtain ⟨t, hu⟩ := hac
  obtain ⟨o, ho, hj⟩ := marshal_tree hu hm
  cases hu with
  | struct hs =>
    rename_i ts
    obtain ⟨hmap, hfw, hbw⟩ := unff_mem hs
    obtain ⟨hdm, hdep⟩ := distinct_map hmap
    simp only [TV.mar] at ho
    split at ho
    · cases ho
    · rename_i ps dep hr
      cases o with
      | none =>
        have := (structJ_none ho).1 rfl
        simp [optEmpty] at this
      | some j' =>
        obtain ⟨m, rfl, hget⟩ := struct_spec hord (hdm.1 hd) hr ho
        obtain ⟨hmem, htot⟩ := marf_mem ts ps dep hr
        rw [← hdep] at hget
        -- a proper field is not a deprecated one
        have hnotdep : ∀ i x, (i, x) ∈ fs → i.Proper → smGet (depMap fs) i.name = none := by
          intro i x hm hp
          cases hg : smGet (depMap fs) i.name with
          | none => rfl
          | some k =>
            obtain ⟨i', x', m', p', n', d'⟩ := depMap_mem fs _ _ hg
            have := distinct_name hd hm m' hp.1 p' n'.symm
            cases this
            rw [hp.2] at d'; cases d'
        have hproper : ∀ i x, (i, x) ∈ fs → i.Proper → ∀ v, smGet m i.name = some v ↔ ∃ t, Unf h x t ∧ t.mar ord oe (some i) = some (some v) := by
          intro i x hm hp v
          rw [hget]
          constructor
          · rintro (h1 | ⟨k', e, h1, _⟩)
            · obtain ⟨i', t', a, b, c, d⟩ := (hmem _ _).1 h1
              obtain ⟨x', hx', hu'⟩ := hbw i' t' a
              have := distinct_name hd hm hx' hp.1 b.1 c.symm
              cases this
              exact ⟨t', hu', d⟩
            · rw [hnotdep i x hm hp] at h1; cases h1
          · rintro ⟨t, h1, h2⟩
            obtain ⟨t', a, b⟩ := hfw i x hm
            rw [unf_fun h1 b] at h2
            exact .inl ((hmem _ _).2 ⟨i, t', a, hp, rfl, h2⟩)
        have hps : ∀ k v, (k, v) ∈ ps → smGet (depMap fs) k = none := by
          intro k v h1
          obtain ⟨i', t', a, b, c, d⟩ := (hmem _ _).1 h1
          obtain ⟨x', hx', hu'⟩ := hbw i' t' a
          rw [← c]; exact hnotdep i' x' hx' b
        refine ⟨m, hj.symm, ?_, ?_, ?_, ?_⟩
        · intro i x hm hp
          obtain ⟨t', a, b⟩ := hfw i x hm
          obtain ⟨o', ho'⟩ := htot i t' a hp
          refine ⟨?_, ?_, ?_⟩
          · have h1 := mar_none_iff t' (some i) o' ho'
            have h2 : smGet m i.name = none ↔ o' = none := by
              cases o' with
              | none =>
                simp only [iff_true]
                cases hg : smGet m i.name with
                | none => rfl
                | some v =>
                  obtain ⟨t'', c, d⟩ := (hproper i x hm hp v).1 hg
                  rw [unf_fun c b, ho'] at d; cases d
              | some v => simp only [(hproper i x hm hp v).2 ⟨t', b, ho'⟩, reduceCtorEq]
            rw [h2, h1]
            constructor
            · rintro ⟨c, d⟩; exact ⟨c, t', b, d⟩
            · rintro ⟨c, t'', d, e⟩; rw [unf_fun d b] at e; exact ⟨c, e⟩
          · intro hfs v hv
            obtain ⟨t'', c, d⟩ := (hproper i x hm hp v).1 hv
            exact tree_marshal (o := some v) c (mar_info t'' (some i) v hfs d)
          · intro hfs v hv
            obtain ⟨t'', c, d⟩ := (hproper i x hm hp v).1 hv
            obtain ⟨w, h1, h2⟩ := quoted_tree c (info := some i) hfs v d
            obtain ⟨n', h3⟩ := tree_marshal (pick := pick) (o := some w) c h1
            exact ⟨n', w, h3, h2⟩
        · intro i x k e hm hi hk he
          have hg : smGet (depMap fs) i.name = some k := (depMap_iff fs hd _ _).2 ⟨i, x, hm, hi, rfl, hk⟩
          have hend : smGet (depMap fs) e = none := depEnd_end he
          have key : ∀ v, smGet m i.name = some v ↔ smGet m e = some v := by
            intro v
            rw [hget, hget]
            constructor
            · rintro (h1 | ⟨k', e', h1, h2, h3⟩)
              · rw [hps _ _ h1] at hg; cases hg
              · rw [hg] at h1; cases h1
                rw [depEnd_unique h2 he] at h3
                exact .inl h3
            · rintro (h1 | ⟨k', e', h1, _⟩)
              · exact .inr ⟨k, e, hg, he, h1⟩
              · rw [hend] at h1; cases h1
          cases h1 : smGet m i.name with
          | none =>
            cases h2 : smGet m e with
            | none => rfl
            | some v => rw [(key v).2 h2] at h1; cases h1
          | some v => exact ((key v).1 h1).symm
        · intro k v hv
          rcases (hget k v).1 hv with h1 | ⟨k', e, h1, _⟩
          · obtain ⟨i', t', a, b, c, d⟩ := (hmem _ _).1 h1
            obtain ⟨x', hx', hu'⟩ := hbw i' t' a
            exact ⟨i', x', hx', b.1, c⟩
          · obtain ⟨i', x', a, b, c, _⟩ := depMap_mem fs _ _ h1
            exact ⟨i', x', a, b, c⟩
        · intro i x k hm hi hk hne
          cases hv : smGet m i.name with
          | none => rfl
          | some v =>
            have hg : smGet (depMap fs) i.name = some k := (depMap_iff fs hd _ _).2 ⟨i, x, hm, hi, rfl, hk⟩
            rcases (hget _ _).1 hv with h1 | ⟨k', e, h1, h2, _⟩
            · rw [hps _ _ h1] at hg; cases hg
            · rw [hg] at h1; cases h1; exact absurd ⟨e, h2⟩ hne

/-- Fields `int` and `[]int` with the option `string`. -/
example : marshal id List.head! true [] 1 (.struct [({ name := b!"n", forceString := true }, .leaf (.int 7)),
      ({ name := b!"xs", forceString := true }, .seq [.leaf (.int 1)]), ({ name := b!"s", forceString := true }, .leaf (.str b!"a"))]) =
      some (.dict 0 [(b!"n", .str b!"7"), (b!"s", .str b!"a"), (b!"xs", .str b!"[1]")]) ∧
    Quoted [] (.seq [.leaf (.int 1)]) (.arr [.int 1]) (.str b!"[1]") := by
  refine ⟨?_, .seq _ _⟩
  rfl

/-- **C40, `MarshalAll` keeps every field**, in any memory, cyclic or not. -/
theorem C40_marshalAll {h : List GV} {fs : List (FInfo × GV)} {n : Nat} {j : J} (hm : marshal ord pick false h n (.struct fs) = some j) :
    ∃ id m, j = .dict id m ∧ ∀ i x, (i, x) ∈ fs → i.Proper → smGet m i.name ≠ none := by
  unfold marshal at hm
  rw [gmar_gd] at hm
  simp only [GV.mar] at hm
  cases hr : GV.marf ord false (gd ord false h n) fs .init with
  | none => rw [hr] at hm; cases hm
  | some r =>
    obtain ⟨s', ps, dep⟩ := r
    rw [hr] at hm
    simp only [structDict] at hm
    cases hdp : depPairs dep (dep.length + 1) ps (ord dep) with
    | none => rw [hdp] at hm; cases hm
    | some dps =>
      rw [hdp] at hm
      simp only [Bool.false_eq_true, and_false, if_false, forceStr, optForce] at hm
      cases hm
      simp only [MJ.finish]
      refine ⟨_, _, rfl, fun i x hmem hp => ?_⟩
      rw [finishf_map, smGet_mapv]
      have := marf_all fs .init _ ps dep hr i x hmem hp
      obtain ⟨y, hy⟩ := this
      rw [ne_eq, Option.map_eq_none_iff]
      exact pairsDict_ne _ i.name y (List.mem_append_left _ hy)

/-- **C40, `Marshal` writes a subset of the keys of `MarshalAll`.** -/
theorem C40_subset (hord : ∀ dep, (ord dep).Perm dep) {h : List GV} {fs : List (FInfo × GV)} (hd : DistinctNames fs)
    (hac : Acyclic h (.struct fs)) {n n' : Nat} {m m' : SMap J} (hm : marshal ord pick true h n (.struct fs) = some (.dict 0 m))
    (hm' : marshal ord pick false h n' (.struct fs) = some (.dict 0 m')) (k : Bytes) (hk : smGet m k ≠ none) : smGet m' k ≠ none := by
  obtain ⟨_, h1, p1, d1, k1, l1⟩ := C40_struct hord hd hac hm
  obtain ⟨_, h2, p2, d2, k2, l2⟩ := C40_struct hord hd hac hm'
  cases h1; cases h2
  have proper : ∀ i x, (i, x) ∈ fs → i.Proper → smGet m' i.name ≠ none := by
    intro i x a b
    rw [ne_eq, (p2 i x a b).1]; simp
  cases hv : smGet m k with
  | none => exact absurd hv hk
  | some v =>
    obtain ⟨i, x, a, b, c⟩ := k1 k v hv
    subst c
    cases hdp : i.deprecatedBy with
    | none => exact proper i x a ⟨b, hdp⟩
    | some k' =>
      by_cases he : ∃ e, DepEnd (depMap fs) k' e
      · obtain ⟨e, he⟩ := he
        rw [d2 i x k' e a b hdp he]
        have hse := d1 i x k' e a b hdp he
        rw [hv] at hse
        obtain ⟨i', x', a', b', c'⟩ := k1 e v hse.symm
        have hend : smGet (depMap fs) e = none := depEnd_end he
        cases hdp' : i'.deprecatedBy with
        | none => rw [← c']; exact proper i' x' a' ⟨b', hdp'⟩
        | some k'' =>
          have := (depMap_iff fs hd e k'').2 ⟨i', x', a', b', c', hdp'⟩
          rw [hend] at this; cases this
      · rw [l1 i x k' a b hdp he] at hv; cases hv

/-- **C40, the same scalars.** A scalar that `Marshal` writes, `MarshalAll` writes too, as the same document. -/
theorem C40_scalar {l : Leaf} {info : Option FInfo} {j : J} (h : l.marshal info true = some j) : l.marshal info false = some j :=
  leaf_all h

/-- A struct with an empty string, a nil pointer (both dropped), a zero with no tag (kept), a shared pointer and a
deprecated alias. -/
def exStruct : List (FInfo × GV) :=
  [({ name := b!"a", omitEmpty := true }, .leaf (.str [])), ({ name := b!"b" }, .leaf .nil), ({ name := b!"c" }, .leaf (.int 0)),
   ({ name := b!"d" }, .ptr 0), ({ name := b!"e" }, .ptr 0), ({ name := b!"f", deprecatedBy := some b!"d" }, .leaf (.int 1))]

example : DistinctNames exStruct ∧ Acyclic [.struct [({ name := b!"x" }, .leaf (.bool true))]] (.struct exStruct) := by
  have p : Unf [.struct [({ name := b!"x" }, .leaf (.bool true))]] (.struct [({ name := b!"x" }, .leaf (.bool true))])
      (.struct [({ name := b!"x" }, .leaf (.bool true))]) := .struct (.cons (.leaf _) .nil)
  refine ⟨by unfold DistinctNames; decide, _, .struct (.cons (.leaf _) (.cons (.leaf _) (.cons (.leaf _) (.cons (.ptr rfl p) (.cons (.ptr rfl p) (.cons (.leaf _) .nil))))))⟩

example : marshal id pick true [.struct [({ name := b!"x" }, .leaf (.bool true))]] 2 (.struct exStruct) =
    some (.dict 0 [(b!"c", .int 0), (b!"d", .dict 0 [(b!"x", .bool true)]), (b!"e", .dict 0 [(b!"x", .bool true)]), (b!"f", .dict 0 [(b!"x", .bool true)])]) := by
  rfl

/-! ## C43 -/

/-- **C43, termination.** On every finite pointer graph, cyclic or not, `Marshal` and `MarshalAll` return; the nesting of
dereferences never exceeds the number of cells. (Deprecated-by chains as in C41; slices and maps are not shared.) -/
theorem C43_terminates (hord : ∀ dep, (ord dep).Perm dep) {oe : Bool} {h : List GV} {g : GV} (hg : GraphOk h g) {n : Nat} (hn : h.length ≤ n) :
    ∃ j, marshal ord pick oe h n g = some j :=
  marshal_ends hord hg hn

/-- **C43, references.** In a clean graph every reference in the result points to a dictionary in the result that
carries that id, and no two dictionaries carry the same id. -/
theorem C43_refs (hord : ∀ dep, (ord dep).Perm dep) (hpick : ∀ l, l ≠ [] → pick l ∈ l) {oe : Bool} {h : List GV} {g : GV} (hg : GraphClean h g)
    {n : Nat} {j : J} (hm : marshal ord pick oe h n g = some j) : (∀ id ∈ j.ptrIds, id ∈ j.nodeIds) ∧ j.nodeIds.Nodup :=
  marshal_refs hord hpick hg hm

/-- **C43, ids.** In a clean graph every id on a dictionary is caused by a reference: to it, or to a pointer that was met earlier; so without references there are no ids. -/
theorem C43_ids (hord : ∀ dep, (ord dep).Perm dep) (hpick : ∀ l, l ≠ [] → pick l ∈ l) {oe : Bool} {h : List GV} {g : GV} (hg : GraphClean h g)
    {n : Nat} {j : J} (hm : marshal ord pick oe h n g = some j) : (∀ id ∈ j.nodeIds, ∃ r ∈ j.ptrIds, 0 < r ∧ r ≤ id) ∧ (j.nodeIds = [] ↔ j.ptrIds = []) := by
  have h1 := marshal_ids hord hpick hg hm
  have h2 := (marshal_refs hord hpick hg hm).1
  refine ⟨h1, fun h => ?_, fun h => ?_⟩
  · exact List.eq_nil_iff_forall_not_mem.2 fun r hr => by have := h2 r hr; rw [h] at this; cases this
  · refine List.eq_nil_iff_forall_not_mem.2 fun r hr => ?_
    obtain ⟨r', h3, _⟩ := h1 r hr
    rw [h] at h3
    cases h3

/-- **C43, the text of a clean graph can be parsed** and gives the same document back, with its ids and references. -/
theorem C43_reparse (hord : ∀ dep, (ord dep).Perm dep) (hpick : ∀ l, l ≠ [] → pick l ∈ l) {oe : Bool} {h : List GV} {g : GV} (hg : GraphClean h g)
    (hv : ValuesOk h g) {n : Nat} {j : J} (hm : marshal ord pick oe h n g = some j) (hid : ∀ id ∈ j.nodeIds, InI64 id) :
    parse j.toBytes = .ok j.reread := by
  obtain ⟨h1, h2⟩ := marshal_refs hord hpick hg hm
  obtain ⟨h3, h4⟩ := marshal_wf hord hv hm
  refine parse_toBytes j h3 (h4 fun id hi => ?_) h2
  rcases hi with hi | hi
  · exact hid id (h1 id hi)
  · exact hid id hi

/-- Two structs pointing at each other, and a third that holds the first twice. -/
def exCyclic : List GV :=
  [.struct [({ name := b!"next" }, .ptr 1)], .struct [({ name := b!"next" }, .ptr 0)]]
def exRoot : GV := .struct [({ name := b!"p" }, .ptr 0), ({ name := b!"q" }, .ptr 0)]

example : GraphOk exCyclic exRoot ∧ GraphClean exCyclic exRoot ∧ ValuesOk exCyclic exRoot := by
  have dep1 : ∀ (i : FInfo) (x : GV), i.deprecatedBy = none → DepOk [(i, x)] := by
    intro i x hi k k' h
    have : depMap [(i, x)] = [] := by simp only [depMap, hi]; cases i.ignore <;> rfl
    rw [this] at h; cases h
  have dep2 : DepOk [(({ name := b!"p" } : FInfo), GV.ptr 0), ({ name := b!"q" }, .ptr 0)] := by
    intro k k' h; cases h
  refine ⟨⟨?_, ?_, ?_⟩, ⟨?_, ?_⟩, ⟨?_, ?_⟩⟩
  · simp [exRoot, exCyclic, GV.Finite, GV.Finitef]
  · simp only [exRoot, GV.DepsOk, GV.DepsOkf, and_true]; exact dep2
  · intro x hx
    simp only [exCyclic, List.mem_cons, List.not_mem_nil, or_false] at hx
    rcases hx with rfl | rfl
    · exact ⟨by simp [exCyclic, GV.Finite, GV.Finitef], by simp only [GV.DepsOk, GV.DepsOkf, and_true]; exact dep1 _ _ rfl⟩
    · exact ⟨by simp [exCyclic, GV.Finite, GV.Finitef], by simp only [GV.DepsOk, GV.DepsOkf, and_true]; exact dep1 _ _ rfl⟩
  · simp only [exRoot, exCyclic, GV.Clean, GV.Cleanf]
    refine ⟨by unfold DistinctNames; decide, ?_, ?_, trivial⟩ <;> (right; refine ⟨trivial, trivial, ?_⟩; intro g hg; cases hg; trivial)
  · intro x hx
    simp only [exCyclic, List.mem_cons, List.not_mem_nil, or_false] at hx
    rcases hx with rfl | rfl <;> simp only [exCyclic, GV.Clean, GV.Cleanf] <;>
      refine ⟨by unfold DistinctNames; decide, ?_, trivial⟩ <;> (right; refine ⟨trivial, trivial, ?_⟩; intro g hg; cases hg; trivial)
  · simp only [exRoot, GV.Ok, GV.Okf]; decide
  · intro x hx
    simp only [exCyclic, List.mem_cons, List.not_mem_nil, or_false] at hx
    rcases hx with rfl | rfl <;> simp only [GV.Ok, GV.Okf] <;> decide

/-- What it becomes: node 2 carries an id although nothing refers to it (so "no other object carries a node id" is
**FALSE**), and the second occurrence is a reference to the first. -/
theorem C43_unreferenced_id : marshal id List.head! true exCyclic 2 exRoot =
    some (.dict 0 [(b!"p", .dict 1 [(b!"next", .dict 2 [(b!"next", .ptr 1)])]), (b!"q", .ptr 1)]) := by
  rfl

/-- **C43, FALSE for slices and maps that contain themselves**: `Marshal` does not return (Go: stack overflow). -/
theorem C43_shared_diverges (oe : Bool) (n : Nat) : marshal ord pick oe [.seq [.shared 0]] n (.shared 0) = none := by
  have key : ∀ n s info, gd ord oe [.seq [.shared 0]] n s info 0 = none := by
    intro n
    induction n with
    | zero => intro s info; rfl
    | succ n ih =>
      intro s info
      rw [gd_succ (g := .seq [.shared 0]) rfl]
      simp [GV.mar, GV.mars, ih]
  unfold marshal
  rw [gmar_gd]
  simp [GV.mar, key]

/-- **C43, FALSE for pointers to anything but structs, maps and scalars**: a pointer to a slice that contains the pointer
gives a reference to nothing. -/
theorem C43_dangling (oe : Bool) : marshal ord pick oe [.seq [.iface (.ptr 0)]] 1 (.ptr 0) = some (.arr [.ptr 1]) := by
  cases oe <;> rfl

/-- **C43, FALSE for pointers to pointers**: the dictionary is target of two live pointers, and the order in which a Go map
is iterated decides whose id it gets; the reference is to the other one half of the time. -/
theorem C43_double_pointer (hord : ∀ dep, (ord dep).Perm dep) (oe : Bool) :
    marshal ord pick oe [.struct [({ name := b!"next" }, .ptr 1)], .ptr 0] 2 (.ptr 1) =
      some (.dict (pick [2, 1]) [(b!"next", .ptr 1)]) := by
  have ho : ord [] = [] := (hord []).eq_nil
  cases oe <;> simp [marshal, gmar, GV.mar, GV.marf, marshalPtr, traceFind, tracePop, structDict, ho, depPairs, MSess.init, MJ.mark, pairsDict,
      smAdd, forceStr, optForce, optEmpty, MJ.finish, MJ.finishf, MSess.live]

/-- **C43, FALSE with deprecated aliases**: the aliased dictionary is written twice with its id, and `Parse` panics on the
text. -/
theorem C43_alias_panics (pick : List Nat → Nat) (hpick : pick [1] = 1) :
    ∃ j, marshal id pick true [.struct [({ name := b!"self" }, .ptr 0)]] 2
      (.struct [({ name := b!"a" }, .ptr 0), ({ name := b!"b", deprecatedBy := some b!"a" }, .leaf .nil)]) = some j ∧ parse j.toBytes = .panic .dupNode := by
  refine ⟨.dict 0 [(b!"a", .dict 1 [(b!"self", .ptr 1)]), (b!"b", .dict 1 [(b!"self", .ptr 1)])], ?_, by rfl⟩
  have : marshal id pick true [.struct [({ name := b!"self" }, .ptr 0)]] 2
      (.struct [({ name := b!"a" }, .ptr 0), ({ name := b!"b", deprecatedBy := some b!"a" }, .leaf .nil)]) =
      some (.dict 0 [(b!"a", .dict (pick [1]) [(b!"self", .ptr 1)]), (b!"b", .dict (pick [1]) [(b!"self", .ptr 1)])]) := by rfl
  rw [this, hpick]; rfl

/-! ## C55 -/

/-- **C55.** What `Marshal` returns is a well-formed document, in any memory: keys sorted and unique at every depth, integers
in int64. -/
theorem C55_well_formed (hord : ∀ dep, (ord dep).Perm dep) {oe : Bool} {h : List GV} {g : GV} (hv : ValuesOk h g) {n : Nat} {j : J}
    (hm : marshal ord pick oe h n g = some j) : j.WF :=
  (marshal_wf hord hv hm).1

/-- **C55, acyclic values.** No reference and no id is written, whatever is shared, and the text can be parsed back. -/
theorem C55_acyclic (hord : ∀ dep, (ord dep).Perm dep) {oe : Bool} {h : List GV} {g : GV} (hac : Acyclic h g) (hg : g.NoIds) (hh : ∀ x ∈ h, x.NoIds)
    (hv : ValuesOk h g) {n : Nat} {j : J} (hm : marshal ord pick oe h n g = some j) :
    j.nodeIds = [] ∧ j.ptrIds = [] ∧ parse j.toBytes = .ok j.reread := by
  obtain ⟨h1, h2⟩ := marshal_bare hac hg hh hm
  obtain ⟨h3, h4⟩ := marshal_wf hord hv hm
  refine ⟨h1, h2, parse_toBytes j h3 (h4 fun id hi => ?_) (by rw [h1]; simp)⟩
  rw [h1, h2] at hi; simp at hi

/-- **C55, determinism.** On acyclic values the result depends neither on the iteration order of Go maps nor on the
fuel. -/
theorem C55_deterministic (hord : ∀ dep, (ord dep).Perm dep) {ord' : SMap Bytes → List (Bytes × Bytes)} {pick' : List Nat → Nat}
    (hord' : ∀ dep, (ord' dep).Perm dep) {oe : Bool} {h : List GV} {g : GV} (hac : Acyclic h g) {n n' : Nat} {j j' : J}
    (hm : marshal ord pick oe h n g = some j) (hm' : marshal ord' pick' oe h n' g = some j') : j = j' := by
  obtain ⟨t, hu⟩ := hac
  obtain ⟨o, h1, h2⟩ := marshal_tree hu hm
  obtain ⟨o', h3, h4⟩ := marshal_tree hu hm'
  have := mar_ord hord hord' t none o o' h1 h3
  rw [← h2, ← h4, this]

end Jsonutils.Props
