import Verif.Proofs.MarshalTree

namespace Jsonutils

variable {ord : SMap Bytes → List (Bytes × Bytes)} {oe : Bool}

/-! ### Tag options -/

@[simp] theorem asks_empty (info : Option FInfo) : Asks info (·.omitEmpty) = optEmpty info := by cases info <;> rfl
@[simp] theorem asks_zero (info : Option FInfo) : Asks info (·.omitZero) = optZero info := by cases info <;> rfl
@[simp] theorem asks_false (info : Option FInfo) : Asks info (·.omitFalse) = optFalse info := by cases info <;> rfl
@[simp] theorem asks_force (info : Option FInfo) : Asks info (·.forceString) = optForce info := by cases info <;> rfl

/-! ### The fuel for deprecated-by chains -/

theorem nodup_length_le {α : Type} [DecidableEq α] : ∀ (l m : List α), l.Nodup → (∀ x ∈ l, x ∈ m) → l.length ≤ m.length := by
  intro l
  induction l with
  | nil => intro m _ _; simp
  | cons x l ih =>
    intro m hn hs
    rw [List.nodup_cons] at hn
    have hx := hs x (by simp)
    have := ih (m.erase x) hn.2 (fun y hy => (List.mem_erase_of_ne (by rintro rfl; exact hn.1 hy)).2 (hs y (by simp [hy])))
    rw [List.length_erase_of_mem hx] at this
    have : 0 < m.length := List.length_pos_of_mem hx
    simp only [List.length_cons]; omega

theorem chaseDep_min {dep : SMap Bytes} {d : Bytes} : ∀ (f : Nat) (key : Bytes) (r : Option Bytes), chaseDep dep d f key = some r →
    (∀ f' < f, chaseDep dep d f' key = none) →
    ∃ l : List Bytes, l.Nodup ∧ l.length + 1 = f ∧ (∀ k ∈ l, k ∈ dep.map (·.1)) ∧ ∀ k ∈ l, ∃ f' ≤ f, chaseDep dep d f' k = some r := by
  intro f
  induction f with
  | zero => intro key r h; cases h
  | succ f ih =>
    intro key r h hmin
    have h0 := h
    simp only [chaseDep] at h
    cases hk : smGet dep key with
    | none => exact ⟨[], by simp, by
        have := hmin 1
        simp only [chaseDep, hk] at this
        cases f with
        | zero => rfl
        | succ f => exact absurd (this (by omega)) (by simp), by simp, by simp⟩
    | some ok =>
      rw [hk] at h
      simp only at h
      by_cases hd : ok = d
      · rw [if_pos hd] at h
        refine ⟨[], by simp, ?_, by simp, by simp⟩
        have := hmin 1
        simp only [chaseDep, hk, if_pos hd] at this
        cases f with
        | zero => rfl
        | succ f => exact absurd (this (by omega)) (by simp)
      · rw [if_neg hd] at h
        obtain ⟨l, h1, h2, h3, h4⟩ := ih ok r h (fun f' hf' => by
          have := hmin (f' + 1) (by omega)
          simpa only [chaseDep, hk, if_neg hd] using this)
        refine ⟨key :: l, ?_, by simp only [List.length_cons]; omega, ?_, ?_⟩
        · rw [List.nodup_cons]
          refine ⟨fun hm => ?_, h1⟩
          obtain ⟨f', hf', h5⟩ := h4 key hm
          rw [hmin f' (by omega)] at h5; cases h5
        · intro k hm
          rcases List.mem_cons.1 hm with rfl | hm
          · exact List.mem_map.2 ⟨_, smGet_mem hk, rfl⟩
          · exact h3 k hm
        · intro k hm
          rcases List.mem_cons.1 hm with rfl | hm
          · exact ⟨_, Nat.le_refl _, h0⟩
          · obtain ⟨f', hf', h5⟩ := h4 k hm
            exact ⟨f', by omega, h5⟩

theorem chaseDep_bound {dep : SMap Bytes} {d key : Bytes} {f : Nat} {r : Option Bytes} (h : chaseDep dep d f key = some r) :
    chaseDep dep d (dep.length + 1) key = some r := by
  have key' : ∀ f, chaseDep dep d f key = some r → ∃ g, chaseDep dep d g key = some r ∧ ∀ f' < g, chaseDep dep d f' key = none := by
    intro f
    induction f using Nat.strongRecOn with
    | _ f ih =>
      intro h
      by_cases hm : ∃ f' < f, chaseDep dep d f' key ≠ none
      · obtain ⟨f', hf', hne⟩ := hm
        refine ih f' hf' ?_
        cases hc : chaseDep dep d f' key with
        | none => exact absurd hc hne
        | some r' => rw [chaseDep_mono dep d f' f key r' (by omega) hc] at h; exact h
      · refine ⟨f, h, fun f' hf' => ?_⟩
        cases hc : chaseDep dep d f' key with
        | none => rfl
        | some r' => exact absurd ⟨f', hf', by rw [hc]; simp⟩ hm
  obtain ⟨g, h1, h2⟩ := key' f h
  obtain ⟨l, h3, h4, h5, _⟩ := chaseDep_min g key r h1 h2
  have := nodup_length_le l _ h3 h5
  rw [List.length_map] at this
  exact chaseDep_mono dep d g _ key r (by omega) h1

theorem depPairs_bound {α : Type} {dep : SMap Bytes} {pairs : List (Bytes × α)} {f : Nat} : ∀ {todo : List (Bytes × Bytes)} {ps : List (Bytes × α)},
    depPairs dep f pairs todo = some ps → depPairs dep (dep.length + 1) pairs todo = some ps := by
  intro todo
  induction todo with
  | nil => intro ps h; exact h
  | cons e todo ih =>
    obtain ⟨d, k⟩ := e
    intro ps h
    simp only [depPairs] at h ⊢
    cases hc : chaseDep dep d f k with
    | none => rw [hc] at h; cases h
    | some found =>
      rw [hc] at h
      rw [chaseDep_bound hc]
      simp only at h ⊢
      cases hr : depPairs dep f pairs todo with
      | none => rw [hr] at h; cases h
      | some q => rw [hr] at h; rw [ih hr]; exact h

theorem depPairs_nil {α : Type} {dep : SMap Bytes} {f : Nat} : ∀ {todo : List (Bytes × Bytes)} {ps : List (Bytes × α)},
    depPairs dep f [] todo = some ps → ps = [] := by
  intro todo
  induction todo with
  | nil => intro ps h; simp only [depPairs] at h; cases h; rfl
  | cons e todo ih =>
    obtain ⟨d, k⟩ := e
    intro ps h
    simp only [depPairs] at h
    cases hc : chaseDep dep d f k with
    | none => rw [hc] at h; cases h
    | some found =>
      rw [hc] at h
      simp only at h
      cases hr : depPairs dep f ([] : List (Bytes × α)) todo with
      | none => rw [hr] at h; cases h
      | some q =>
        rw [hr] at h
        rw [ih hr] at h
        cases found with
        | none => simp only at h; cases h; rfl
        | some k' => simp only [findValueByKey] at h; cases h; rfl

theorem depMap_sorted {α : Type} : ∀ fs : List (FInfo × α), SMap.Sorted (depMap fs)
  | [] => sorted_nil
  | (i, x) :: fs => by
    simp only [depMap]
    have ih := depMap_sorted fs
    split
    · split
      · exact ih
      · exact sorted_smAdd ih _ _
    · exact ih

/-! ### Leaves -/

theorem J.emptyVal_iff (j : J) : j.emptyVal = true ↔ j.Hollow := by
  cases j with
  | null => simp only [J.emptyVal]; exact ⟨fun h => by simp at h, fun h => by cases h⟩
  | ptr => simp only [J.emptyVal]; exact ⟨fun h => by simp at h, fun h => by cases h⟩
  | bool b => cases b <;> simp only [J.emptyVal] <;> first | exact ⟨fun _ => .bool, fun _ => rfl⟩ | exact ⟨fun h => by simp at h, fun h => by cases h⟩
  | int n => simp only [J.emptyVal]; exact ⟨fun h => by rw [eq_of_beq h]; exact .int, fun h => by cases h; rfl⟩
  | float x bit =>
    cases x with
    | fin neg m e =>
      cases m with
      | zero => exact ⟨fun _ => .float neg e bit, fun _ => rfl⟩
      | succ m => exact ⟨fun h => by simp [J.emptyVal, GoFloat.isZero] at h, fun h => by cases h⟩
    | inf => exact ⟨fun h => by simp [J.emptyVal, GoFloat.isZero] at h, fun h => by cases h⟩
    | nan => exact ⟨fun h => by simp [J.emptyVal, GoFloat.isZero] at h, fun h => by cases h⟩
  | str s => cases s <;> first | exact ⟨fun _ => .str, fun _ => rfl⟩ | exact ⟨fun h => by simp [J.emptyVal] at h, fun h => by cases h⟩
  | arr s => cases s <;> first | exact ⟨fun _ => .arr, fun _ => rfl⟩ | exact ⟨fun h => by simp [J.emptyVal] at h, fun h => by cases h⟩
  | dict i s => cases s <;> first | exact ⟨fun _ => .dict i, fun _ => rfl⟩ | exact ⟨fun h => by simp [J.emptyVal] at h, fun h => by cases h⟩

theorem leaf_none_iff (l : Leaf) (info : Option FInfo) : l.marshal info oe = none ↔ oe = true ∧ l.Empty info := by
  cases l with
  | nil => simp only [Leaf.marshal, Leaf.Empty]; cases oe <;> simp
  | bool b => simp only [Leaf.marshal, Leaf.Empty, marshalBoolean]; cases oe <;> (try split) <;> (try split) <;> simp_all
  | int b => simp only [Leaf.marshal, Leaf.Empty, marshalInt64]; cases oe <;> (try split) <;> (try split) <;> simp_all
  | float32 b => simp only [Leaf.marshal, Leaf.Empty, marshalFloat32]; cases oe <;> (try split) <;> (try split) <;> simp_all
  | float64 b => simp only [Leaf.marshal, Leaf.Empty, marshalFloat64]; cases oe <;> (try split) <;> (try split) <;> simp_all
  | str s => simp only [Leaf.marshal, Leaf.Empty, marshalString]; cases oe <;> (try split) <;> simp_all
  | tri t => rcases t with _ | b <;> simp only [Leaf.marshal, Leaf.Empty, marshalTristate] <;> cases oe <;> simp
  | time t => rcases t with _ | b <;> simp only [Leaf.marshal, Leaf.Empty, marshalTime] <;> simp_all; exact And.comm
  | jsonVal j => simp only [Leaf.marshal, Leaf.Empty, ← J.emptyVal_iff]; cases oe <;> (try split) <;> simp_all
  | jsonIface j => simp [Leaf.marshal, Leaf.Empty]
  | std j => simp [Leaf.marshal, Leaf.Empty]
  | other => simp [Leaf.marshal, Leaf.Empty]

theorem leaf_info {l : Leaf} {info : Option FInfo} (hf : optForce info = false) {j : J} (h : l.marshal info oe = some j) : l.marshal none oe = some j := by
  cases l with
  | nil => exact h
  | bool b =>
    simp only [Leaf.marshal, marshalBoolean] at h ⊢
    split at h
    · cases h
    · rw [if_neg (by simp [hf])] at h; simpa [optFalse, optForce] using h
  | int b =>
    simp only [Leaf.marshal, marshalInt64] at h ⊢
    split at h
    · cases h
    · rw [if_neg (by simp [hf])] at h; simpa [optZero, optForce] using h
  | float32 b =>
    simp only [Leaf.marshal, marshalFloat32] at h ⊢
    split at h
    · cases h
    · rw [if_neg (by simp [hf])] at h; simpa [optZero, optForce] using h
  | float64 b =>
    simp only [Leaf.marshal, marshalFloat64] at h ⊢
    split at h
    · cases h
    · rw [if_neg (by simp [hf])] at h; simpa [optZero, optForce] using h
  | str s =>
    simp only [Leaf.marshal, marshalString] at h ⊢
    split at h
    · cases h
    · simpa [optEmpty] using h
  | tri t => exact h
  | time t =>
    cases t with
    | none =>
      simp only [Leaf.marshal, marshalTime] at h ⊢
      split at h
      · cases h
      · simpa [optEmpty] using h
    | some s => exact h
  | jsonVal j =>
    simp only [Leaf.marshal] at h ⊢
    split at h
    · cases h
    · simpa [optEmpty] using h
  | jsonIface j => exact h
  | std j => exact h
  | other => exact h

/-! ### Trees -/

theorem structJ_none {info : Option FInfo} {pairs : List (Bytes × J)} {dep : SMap Bytes} {o : Option J} (h : structJ ord oe info pairs dep = some o) :
    o = none ↔ oe = true ∧ pairs = [] ∧ optEmpty info = true := by
  unfold structJ at h
  split at h
  · cases h
  · rename_i dps hd
    have : (pairs ++ dps).isEmpty = pairs.isEmpty := by
      cases pairs with
      | nil => rw [depPairs_nil hd]; rfl
      | cons _ _ => rfl
    rw [this] at h
    split at h
    · rename_i hc; cases h; simp only [true_iff]; simpa [and_comm, and_assoc] using hc
    · rename_i hc; cases h; simp only [reduceCtorEq, false_iff]; simpa [and_comm, and_assoc] using hc

mutual
theorem mar_none_iff : ∀ (t : TV) (info : Option FInfo) (o : Option J), t.mar ord oe info = some o → (o = none ↔ oe = true ∧ t.Empty info)
  | .leaf l, info, o, h => by
    simp only [TV.mar] at h; cases h
    exact leaf_none_iff l info
  | .seq xs, info, o, h => by
    simp only [TV.mar] at h
    simp only [TV.Empty]
    split at h
    · rename_i hc; cases h; simp_all
    · rename_i hc
      split at h
      · cases h
      · cases h; simp only [reduceCtorEq, false_iff]; rintro ⟨h1, h2, h3⟩; exact hc ⟨by simp [h2], h3, h1⟩
  | .map xs, info, o, h => by
    simp only [TV.mar] at h
    simp only [TV.Empty]
    split at h
    · rename_i hc; cases h; simp_all
    · rename_i hc
      split at h
      · cases h
      · cases h; simp only [reduceCtorEq, false_iff]; rintro ⟨h1, h2, h3⟩; exact hc ⟨by simp [h2], h3, h1⟩
  | .struct fs, info, o, h => by
    simp only [TV.mar] at h
    simp only [TV.Empty]
    split at h
    · cases h
    · rename_i pairs dep hr
      rw [structJ_none h]
      constructor
      · rintro ⟨h1, h2, h3⟩
        exact ⟨h1, (marf_nil_iff fs pairs dep h1 hr).1 h2, h3⟩
      · rintro ⟨h1, h2, h3⟩
        exact ⟨h1, (marf_nil_iff fs pairs dep h1 hr).2 h2, h3⟩
  | .iface x, info, o, h => by simp only [TV.mar] at h; simp only [TV.Empty]; exact mar_none_iff x info o h
  | .ptr x, info, o, h => by simp only [TV.mar] at h; simp only [TV.Empty]; exact mar_none_iff x info o h
theorem marf_nil_iff : ∀ (fs : List (FInfo × TV)) (ps : List (Bytes × J)) (dep : SMap Bytes), oe = true → TV.marf ord oe fs = some (ps, dep) →
    (ps = [] ↔ TV.Emptyf fs)
  | [], ps, dep, _, h => by simp only [TV.marf] at h; cases h; simp [TV.Emptyf]
  | (i, x) :: fs, ps, dep, hoe, h => by
    simp only [TV.marf] at h
    simp only [TV.Emptyf]
    split at h
    · rename_i hi
      rw [marf_nil_iff fs ps dep hoe h]; simp [hi]
    · rename_i hi
      split at h
      · rename_i k hk
        split at h
        · cases h
        · rename_i ps' dep' hr
          cases h
          rw [marf_nil_iff fs _ _ hoe hr]; simp [hk]
      · rename_i hk
        split at h
        · cases h
        · rename_i o hx
          split at h
          · cases h
          · rename_i ps' dep' hr
            cases h
            have h1 := mar_none_iff x (some i) o hx
            have h2 := marf_nil_iff fs _ _ hoe hr
            cases o with
            | none => simp only [true_iff] at h1; simp [h2, h1.2]
            | some y =>
              simp only [reduceCtorEq, false_iff] at h1
              simp only [reduceCtorEq, false_iff]
              rintro ⟨h3, _⟩
              rcases h3 with h3 | h3 | h3
              · exact hi h3
              · exact h3 hk
              · exact h1 ⟨hoe, h3⟩
end

theorem structJ_info {info : Option FInfo} (hf : optForce info = false) {pairs : List (Bytes × J)} {dep : SMap Bytes} {j : J}
    (h : structJ ord oe info pairs dep = some (some j)) : structJ ord oe none pairs dep = some (some j) := by
  unfold structJ at h ⊢
  split at h
  · cases h
  · split at h
    · cases h
    · rw [if_neg (by simp [optEmpty])]
      unfold forceJ at h ⊢
      rw [if_neg (by simp [hf])] at h
      rw [if_neg (by simp [optForce])]; exact h

/-- Without `ForceString` the options only decide whether a value is written, not what. -/
theorem mar_info : ∀ (t : TV) (info : Option FInfo) (j : J), optForce info = false → t.mar ord oe info = some (some j) → t.mar ord oe none = some (some j)
  | .leaf l, info, j, hf, h => by
    simp only [TV.mar, Option.some.injEq] at h ⊢
    exact leaf_info hf h
  | .seq xs, info, j, hf, h => by
    simp only [TV.mar] at h ⊢
    split at h
    · cases h
    · rw [if_neg (by simp [optEmpty])]
      split at h
      · cases h
      · unfold forceJ at h ⊢
        rw [if_neg (by simp [hf])] at h
        rw [if_neg (by simp [optForce])]; exact h
  | .map xs, info, j, hf, h => by
    simp only [TV.mar] at h ⊢
    split at h
    · cases h
    · rw [if_neg (by simp [optEmpty])]
      split at h
      · cases h
      · unfold forceJ at h ⊢
        rw [if_neg (by simp [hf])] at h
        rw [if_neg (by simp [optForce])]; exact h
  | .struct xs, info, j, hf, h => by
    simp only [TV.mar] at h ⊢
    split at h
    · cases h
    · exact structJ_info hf h
  | .iface x, info, j, hf, h => by
    simp only [TV.mar] at h ⊢
    exact mar_info x info j hf h
  | .ptr x, info, j, hf, h => by
    simp only [TV.mar] at h ⊢
    exact mar_info x info j hf h

/-! ### Slices and structs, element by element -/

theorem mars_spec : ∀ (ts : List TV) (ys : List J), TV.mars ord oe ts = some ys →
    ∃ js : List (Option J), js.length = ts.length ∧ ys = js.filterMap id ∧ ∀ (i : Nat) t, ts[i]? = some t → ∃ o, js[i]? = some o ∧ t.mar ord oe none = some o
  | [], ys, h => by simp only [TV.mars] at h; cases h; exact ⟨[], rfl, rfl, by simp⟩
  | x :: ts, ys, h => by
    simp only [TV.mars] at h
    split at h
    · cases h
    · rename_i o hx
      split at h
      · cases h
      · rename_i ys' hr
        obtain ⟨js, h1, h2, h3⟩ := mars_spec ts ys' hr
        refine ⟨o :: js, by simp [h1], ?_, ?_⟩
        · cases h; subst h2; cases o <;> rfl
        · intro i t hi
          cases i with
          | zero => simp only [List.getElem?_cons_zero, Option.some.injEq] at hi ⊢; subst hi; exact ⟨o, rfl, hx⟩
          | succ i => simp only [List.getElem?_cons_succ] at hi ⊢; exact h3 i t hi

theorem marf_dep : ∀ (fs : List (FInfo × TV)) (ps : List (Bytes × J)) (dep : SMap Bytes), TV.marf ord oe fs = some (ps, dep) → dep = depMap fs
  | [], ps, dep, h => by simp only [TV.marf] at h; cases h; rfl
  | (i, x) :: fs, ps, dep, h => by
    simp only [TV.marf] at h
    simp only [depMap]
    split at h
    · rename_i hi
      rw [hi]; exact marf_dep fs ps dep h
    · rename_i hi
      simp only [Bool.not_eq_true] at hi
      rw [hi]
      split at h
      · rename_i k hk
        split at h
        · cases h
        · rename_i ps' dep' hr
          cases h
          rw [hk, marf_dep fs _ _ hr]; rfl
      · rename_i hk
        split at h
        · cases h
        · split at h
          · cases h
          · rename_i ps' dep' hr
            cases h
            rw [hk, marf_dep fs _ _ hr]

/-- The pairs of a struct: those of its proper fields. -/
theorem marf_mem : ∀ (fs : List (FInfo × TV)) (ps : List (Bytes × J)) (dep : SMap Bytes), TV.marf ord oe fs = some (ps, dep) →
    (∀ k v, (k, v) ∈ ps ↔ ∃ i x, (i, x) ∈ fs ∧ i.Proper ∧ i.name = k ∧ TV.mar ord oe x (some i) = some (some v)) ∧
    (∀ i x, (i, x) ∈ fs → i.Proper → ∃ o, TV.mar ord oe x (some i) = some o)
  | [], ps, dep, h => by simp only [TV.marf] at h; cases h; simp
  | (i, x) :: fs, ps, dep, h => by
    simp only [TV.marf] at h
    split at h
    · rename_i hi
      obtain ⟨h1, h2⟩ := marf_mem fs ps dep h
      refine ⟨fun k v => ?_, fun i' x' hm hp => ?_⟩
      · rw [h1]
        constructor
        · rintro ⟨i', x', a, b⟩; exact ⟨i', x', List.mem_cons_of_mem _ a, b⟩
        · rintro ⟨i', x', a, b, c⟩
          rcases List.mem_cons.1 a with a | a
          · cases a; rw [b.1] at hi; cases hi
          · exact ⟨i', x', a, b, c⟩
      · rcases List.mem_cons.1 hm with a | a
        · cases a; rw [hp.1] at hi; cases hi
        · exact h2 i' x' a hp
    · rename_i hi
      simp only [Bool.not_eq_true] at hi
      split at h
      · rename_i k' hk
        split at h
        · cases h
        · rename_i ps' dep' hr
          cases h
          obtain ⟨h1, h2⟩ := marf_mem fs _ _ hr
          refine ⟨fun k v => ?_, fun i' x' hm hp => ?_⟩
          · rw [h1]
            constructor
            · rintro ⟨i', x', a, b⟩; exact ⟨i', x', List.mem_cons_of_mem _ a, b⟩
            · rintro ⟨i', x', a, b, c⟩
              rcases List.mem_cons.1 a with a | a
              · cases a; rw [b.2] at hk; cases hk
              · exact ⟨i', x', a, b, c⟩
          · rcases List.mem_cons.1 hm with a | a
            · cases a; rw [hp.2] at hk; cases hk
            · exact h2 i' x' a hp
      · rename_i hk
        split at h
        · cases h
        · rename_i o hx
          split at h
          · cases h
          · rename_i ps' dep' hr
            obtain ⟨h1, h2⟩ := marf_mem fs _ _ hr
            have hp : i.Proper := ⟨hi, hk⟩
            refine ⟨fun k v => ?_, fun i' x' hm hp => ?_⟩
            · cases o with
              | none =>
                cases h
                rw [h1]
                constructor
                · rintro ⟨i', x', a, b⟩; exact ⟨i', x', List.mem_cons_of_mem _ a, b⟩
                · rintro ⟨i', x', a, b, c, d⟩
                  rcases List.mem_cons.1 a with a | a
                  · cases a; rw [hx] at d; cases d
                  · exact ⟨i', x', a, b, c, d⟩
              | some y =>
                cases h
                rw [List.mem_cons, h1]
                constructor
                · rintro (a | ⟨i', x', a, b⟩)
                  · cases a; exact ⟨i, x, List.mem_cons_self .., hp, rfl, hx⟩
                  · exact ⟨i', x', List.mem_cons_of_mem _ a, b⟩
                · rintro ⟨i', x', a, b, c, d⟩
                  rcases List.mem_cons.1 a with a | a
                  · cases a; rw [hx] at d; cases d; left; rw [c]
                  · exact .inr ⟨i', x', a, b, c, d⟩
            · rcases List.mem_cons.1 hm with a | a
              · cases a; exact ⟨o, hx⟩
              · exact h2 i' x' a hp

theorem depMap_mem {α : Type} : ∀ (fs : List (FInfo × α)) (k k' : Bytes), smGet (depMap fs) k = some k' →
    ∃ i x, (i, x) ∈ fs ∧ i.ignore = false ∧ i.name = k ∧ i.deprecatedBy = some k'
  | [], k, k', h => by simp [depMap, smGet] at h
  | (i, x) :: fs, k, k', h => by
    have rest : smGet (depMap fs) k = some k' → ∃ i' x', (i', x') ∈ (i, x) :: fs ∧ i'.ignore = false ∧ i'.name = k ∧ i'.deprecatedBy = some k' := by
      intro h
      obtain ⟨i', x', a, b⟩ := depMap_mem fs k k' h
      exact ⟨i', x', List.mem_cons_of_mem _ a, b⟩
    simp only [depMap] at h
    split at h
    · rename_i k'' hi hk
      split at h
      · exact rest h
      · rw [smGet_smAdd _ (depMap_sorted fs)] at h
        split at h
        · rename_i hkk
          cases h
          exact ⟨i, x, List.mem_cons_self .., hi, hkk.symm, hk⟩
        · exact rest h
    · exact rest h

/-- With distinct names, `depMap` is exactly the deprecated fields. -/
theorem depMap_iff {α : Type} : ∀ (fs : List (FInfo × α)) (_ : DistinctNames fs) (k k' : Bytes), smGet (depMap fs) k = some k' ↔
    ∃ i x, (i, x) ∈ fs ∧ i.ignore = false ∧ i.name = k ∧ i.deprecatedBy = some k' := by
  intro fs
  induction fs with
  | nil => intro _ k k'; simp [depMap, smGet]
  | cons e fs ih =>
    obtain ⟨i, x⟩ := e
    intro hd k k'
    have hd' : DistinctNames fs := by
      unfold DistinctNames at hd ⊢
      rw [List.filter_cons] at hd
      split at hd
      · rw [List.map_cons, List.nodup_cons] at hd; exact hd.2
      · exact hd
    refine ⟨depMap_mem _ k k', ?_⟩
    rintro ⟨i', x', a, b, c, d⟩
    rcases List.mem_cons.1 a with a | a
    · cases a
      have hn : smGet (depMap fs) i.name = none := by
        cases hg : smGet (depMap fs) i.name with
        | none => rfl
        | some z =>
          exfalso
          obtain ⟨i'', x'', p, q, r, _⟩ := depMap_mem fs _ _ hg
          unfold DistinctNames at hd
          rw [List.filter_cons, if_pos (by simp [b]), List.map_cons, List.nodup_cons] at hd
          exact hd.1 (List.mem_map.2 ⟨(i'', x''), List.mem_filter.2 ⟨p, by simp [q]⟩, r⟩)
      simp only [depMap, b, d, hn]
      rw [smGet_smAdd _ (depMap_sorted fs), if_pos c.symm]
    · have hr := (ih hd' k k').2 ⟨i', x', a, b, c, d⟩
      simp only [depMap]
      split
      · rename_i k'' hi hk
        split
        · exact hr
        · rename_i hn
          rw [smGet_smAdd _ (depMap_sorted fs)]
          split
          · rename_i hkk
            rw [← hkk, hr] at hn; cases hn
          · exact hr
      · exact hr

theorem pairsDict_sorted {α : Type} (ps : List (Bytes × α)) : SMap.Sorted (pairsDict ps) := sorted_foldl_smAdd _ _ sorted_nil

theorem pairsDict_get {α : Type} (ps : List (Bytes × α)) (hn : (ps.map (·.1)).Nodup) (k : Bytes) (v : α) :
    smGet (pairsDict ps) k = some v ↔ (k, v) ∈ ps := by
  unfold pairsDict
  suffices H : ∀ (ps : List (Bytes × α)) (m : SMap α), SMap.Sorted m → (ps.map (·.1)).Nodup →
      (smGet (ps.foldl (fun m p => smAdd m p.1 p.2) m) k = some v ↔ (k, v) ∈ ps ∨ (k ∉ ps.map (·.1) ∧ smGet m k = some v)) by
    rw [H ps [] sorted_nil hn]; simp [smGet]
  intro ps
  induction ps with
  | nil => intro m _ _; simp
  | cons e ps ih =>
    obtain ⟨k', v'⟩ := e
    intro m hs hn
    rw [List.map_cons, List.nodup_cons] at hn
    rw [List.foldl_cons, ih _ (sorted_smAdd hs _ _) hn.2, smGet_smAdd _ hs]
    simp only [List.mem_cons, Prod.mk.injEq, List.map_cons, not_or]
    by_cases hk : k = k'
    · subst hk
      simp only [if_true, Option.some.injEq, true_and, not_true_eq_false, false_and, or_false]
      constructor
      · rintro (h | ⟨h, rfl⟩)
        · exact absurd (List.mem_map.2 ⟨_, h, rfl⟩) hn.1
        · left; rfl
      · rintro (h | h)
        · exact .inr ⟨hn.1, h.symm⟩
        · exact .inl h
    · simp [hk]

end Jsonutils
