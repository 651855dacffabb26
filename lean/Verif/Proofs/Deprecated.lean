import Verif.Model.Deprecated
import Verif.Spec.Deprecated
import Verif.Proofs.SortedMap

/-! # Lemmas about deprecated-by tags -/

namespace Jsonutils

variable {α : Type}

theorem sorted_foldl_smAdd (l : List (Bytes × α)) : ∀ (m : SMap α), SMap.Sorted m → SMap.Sorted (l.foldl (fun m p => smAdd m p.1 p.2) m) := by
  induction l with
  | nil => intro m h; exact h
  | cons p r ih => intro m h; exact ih _ (sorted_smAdd h _ _)

/-- Adding entries with distinct keys in another order gives the same map. -/
theorem foldl_smAdd_perm {l l' : List (Bytes × α)} (hp : l.Perm l') (hn : (l.map (·.1)).Nodup) {m : SMap α} (hs : SMap.Sorted m) :
    l.foldl (fun m p => smAdd m p.1 p.2) m = l'.foldl (fun m p => smAdd m p.1 p.2) m := by
  induction hp generalizing m with
  | nil => rfl
  | cons p _ ih =>
    simp only [List.map_cons, List.nodup_cons] at hn
    exact ih hn.2 (sorted_smAdd hs _ _)
  | swap p q r =>
    simp only [List.map_cons, List.nodup_cons, List.mem_cons, not_or] at hn
    simp only [List.foldl_cons]
    congr 1
    refine sorted_ext (sorted_smAdd (sorted_smAdd hs _ _) _ _) (sorted_smAdd (sorted_smAdd hs _ _) _ _) fun k => ?_
    rw [smGet_smAdd _ (sorted_smAdd hs _ _), smGet_smAdd _ hs, smGet_smAdd _ (sorted_smAdd hs _ _), smGet_smAdd _ hs]
    have hne := hn.1.1
    by_cases h1 : k = p.1 <;> by_cases h2 : k = q.1 <;> simp_all
  | trans h1 _ ih1 ih2 =>
    rw [ih1 hn hs]
    exact ih2 (((h1.map _).nodup_iff).1 hn) hs

theorem chaseDep_mono (dep : SMap Bytes) (d : Bytes) : ∀ (f g : Nat) (key : Bytes) (r : Option Bytes), f ≤ g →
    chaseDep dep d f key = some r → chaseDep dep d g key = some r := by
  intro f
  induction f with
  | zero => intro g key r _ h; cases h
  | succ f ih =>
    intro g key r hg h
    obtain ⟨g, rfl⟩ : ∃ g', g = g' + 1 := ⟨g - 1, by omega⟩
    simp only [chaseDep] at h ⊢
    cases hk : smGet dep key with
    | none => simpa [hk] using h
    | some k' =>
      simp only [hk] at h ⊢
      split at h
      · rename_i hc; simpa [hc] using h
      · rename_i hc; simp only [hc, if_false]; exact ih g k' r (by omega) h

theorem chaseDep_sound (dep : SMap Bytes) (d : Bytes) : ∀ (f : Nat) (key : Bytes),
    (chaseDep dep d f key = some none → DepReach dep d key) ∧
    (∀ e, chaseDep dep d f key = some (some e) → DepEnd dep key e) := by
  intro f
  induction f with
  | zero => intro key; simp [chaseDep]
  | succ f ih =>
    intro key
    simp only [chaseDep]
    cases hk : smGet dep key with
    | none =>
      simp only [Option.some.injEq, reduceCtorEq, false_implies, true_and]
      rintro e rfl
      exact .here hk
    | some k' =>
      simp only
      by_cases hc : k' = d
      · simp only [hc, if_true, true_implies, Option.some.injEq, reduceCtorEq, false_implies, implies_true, and_true]
        exact .one (hc ▸ hk)
      · simp only [hc, if_false]
        exact ⟨fun h => .next hk ((ih k').1 h), fun e h => .next hk ((ih k').2 e h)⟩

theorem chaseDep_loop {dep : SMap Bytes} {d key : Bytes} (h : DepReach dep d key) : ∃ f, chaseDep dep d f key = some none := by
  induction h with
  | one hk => exact ⟨1, by simp [chaseDep, hk]⟩
  | next hk _ ih =>
    obtain ⟨f, hf⟩ := ih
    rename_i k k' _
    refine ⟨f + 1, ?_⟩
    simp only [chaseDep, hk]
    split
    · rfl
    · exact hf

theorem depEnd_unique {dep : SMap Bytes} {k e e' : Bytes} (h : DepEnd dep k e) (h' : DepEnd dep k e') : e = e' := by
  induction h with
  | here hk => cases h' with
    | here => rfl
    | next hk' _ => rw [hk] at hk'; cases hk'
  | next hk _ ih => cases h' with
    | here hk' => rw [hk] at hk'; cases hk'
    | next hk' h2 => rw [hk] at hk'; cases hk'; exact ih h2

/-- A chain that ends never comes back to a key that leads into it. -/
theorem depEnd_no_loop {dep : SMap Bytes} {k e : Bytes} (h : DepEnd dep k e) : ∀ d, smGet dep d = some k → ¬ DepReach dep d k := by
  suffices this' : ∀ (k e : Bytes), DepEnd dep k e → ¬ DepReach dep k k by
    intro d hd hr
    -- d → k →* d: then k →* k
    have : ∀ k', DepReach dep d k' → DepReach dep k k' := by
      intro k' h'
      induction h' with
      | one hk => exact .next hk (.one hd)
      | next hk _ ih => exact .next hk ih
    exact this' k e h (this k hr)
  clear h
  intro k e h
  induction h with
  | here hk => intro hr; cases hr with
    | one hk' => rw [hk] at hk'; cases hk'
    | next hk' _ => rw [hk] at hk'; cases hk'
  | next hk _ ih =>
    rename_i k k' e _
    intro hr
    apply ih
    have hx : ∀ j, DepReach dep k j → DepReach dep k' j := by
      intro j h'
      induction h' with
      | one hj => exact .next hj (.one hk)
      | next hj _ ih' => exact .next hj ih'
    cases hr with
    | one hk' => rw [hk] at hk'; cases hk'; exact .one hk
    | next hk' h2 => rw [hk] at hk'; cases hk'; exact hx _ h2

theorem chaseDep_end {dep : SMap Bytes} {d key e : Bytes} (h : DepEnd dep key e) (hn : ¬ DepReach dep d key) :
    ∃ f, chaseDep dep d f key = some (some e) := by
  induction h with
  | here hk => exact ⟨1, by simp [chaseDep, hk]⟩
  | next hk _ ih =>
    obtain ⟨f, hf⟩ := ih (fun h => hn (.next hk h))
    refine ⟨f + 1, ?_⟩
    simp only [chaseDep, hk]
    rw [if_neg]
    · exact hf
    · rintro rfl; exact hn (.one hk)

/-- When one deprecated key is resolved. -/
theorem chaseDep_terminates (dep : SMap Bytes) (d key : Bytes) (hd : smGet dep d = some key) :
    (∃ f r, chaseDep dep d f key = some r) ↔ (∃ e, DepEnd dep key e) ∨ DepReach dep d key := by
  constructor
  · rintro ⟨f, r, h⟩
    cases r with
    | none => exact Or.inr ((chaseDep_sound dep d f key).1 h)
    | some e => exact Or.inl ⟨e, (chaseDep_sound dep d f key).2 e h⟩
  · rintro (⟨e, h⟩ | h)
    · obtain ⟨f, hf⟩ := chaseDep_end h (depEnd_no_loop h d hd)
      exact ⟨f, _, hf⟩
    · obtain ⟨f, hf⟩ := chaseDep_loop h
      exact ⟨f, _, hf⟩

theorem depPairs_mem {dep : SMap Bytes} {fuel : Nat} {pairs : List (Bytes × α)} : ∀ {todo : List (Bytes × Bytes)} {ps : List (Bytes × α)},
    depPairs dep fuel pairs todo = some ps → ∀ k v, (k, v) ∈ ps ↔
      ∃ t e, (k, t) ∈ todo ∧ chaseDep dep k fuel t = some (some e) ∧ findValueByKey pairs e = some v := by
  intro todo
  induction todo with
  | nil => intro ps h k v; cases h; simp
  | cons p rest ih =>
    obtain ⟨d, t⟩ := p
    intro ps h k v
    simp only [depPairs] at h
    cases hc : chaseDep dep d fuel t with
    | none => rw [hc] at h; cases h
    | some found =>
      simp only [hc] at h
      cases hr : depPairs dep fuel pairs rest with
      | none => rw [hr] at h; cases h
      | some ps' =>
        simp only [hr] at h
        have ih' := ih hr k v
        have skip : (∀ e, found = some e → findValueByKey pairs e = none) → ps = ps' →
            ((k, v) ∈ ps ↔ ∃ t_1 e, (k, t_1) ∈ (d, t) :: rest ∧ chaseDep dep k fuel t_1 = some (some e) ∧ findValueByKey pairs e = some v) := by
          rintro hf rfl
          rw [ih']
          constructor
          · rintro ⟨t', e, h1, h2⟩; exact ⟨t', e, List.mem_cons_of_mem _ h1, h2⟩
          · rintro ⟨t', e, h1, h2, h3⟩
            rcases List.mem_cons.1 h1 with h1 | h1
            · cases h1
              rw [hc] at h2
              cases h2
              rw [hf e rfl] at h3; cases h3
            · exact ⟨t', e, h1, h2, h3⟩
        cases found with
        | none => simp only [Option.some.injEq] at h; exact skip (by simp) h.symm
        | some e =>
          simp only at h
          cases hv : findValueByKey pairs e with
          | none =>
            simp only [hv, Option.some.injEq] at h
            exact skip (by rintro e' he; cases he; exact hv) h.symm
          | some w =>
            simp only [hv, Option.some.injEq] at h
            subst h
            simp only [List.mem_cons, ih', Prod.mk.injEq]
            constructor
            · rintro (⟨rfl, rfl⟩ | ⟨t', e', h1, h2⟩)
              · exact ⟨t, e, Or.inl ⟨rfl, rfl⟩, hc, hv⟩
              · exact ⟨t', e', Or.inr h1, h2⟩
            · rintro ⟨t', e', ⟨rfl, rfl⟩ | h1, h2, h3⟩
              · rw [hc] at h2; cases h2; rw [hv] at h3; cases h3; exact Or.inl ⟨rfl, rfl⟩
              · exact Or.inr ⟨t', e', h1, h2, h3⟩

theorem depPairs_keys {dep : SMap Bytes} {fuel : Nat} {pairs : List (Bytes × α)} : ∀ {todo : List (Bytes × Bytes)} {ps : List (Bytes × α)},
    depPairs dep fuel pairs todo = some ps → (ps.map (·.1)).Sublist (todo.map (·.1)) := by
  intro todo
  induction todo with
  | nil => intro ps h; cases h; simp
  | cons p rest ih =>
    obtain ⟨d, t⟩ := p
    intro ps h
    simp only [depPairs] at h
    split at h
    · cases h
    · split at h
      · cases h
      · rename_i ps' hr
        have := ih hr
        split at h
        · cases h; exact List.Sublist.cons _ this
        · split at h
          · cases h; exact List.Sublist.cons _ this
          · cases h; exact List.Sublist.cons_cons _ this

theorem depPairs_mono {dep : SMap Bytes} {f g : Nat} (hg : f ≤ g) {pairs : List (Bytes × α)} : ∀ {todo : List (Bytes × Bytes)} {ps : List (Bytes × α)},
    depPairs dep f pairs todo = some ps → depPairs dep g pairs todo = some ps := by
  intro todo
  induction todo with
  | nil => intro ps h; exact h
  | cons p rest ih =>
    obtain ⟨d, t⟩ := p
    intro ps h
    simp only [depPairs] at h ⊢
    cases hc : chaseDep dep d f t with
    | none => rw [hc] at h; cases h
    | some found =>
      rw [hc] at h
      rw [chaseDep_mono dep d f g t _ hg hc]
      simp only at h ⊢
      cases hr : depPairs dep f pairs rest with
      | none => rw [hr] at h; cases h
      | some ps' => rw [hr] at h; rw [ih hr]; exact h

theorem depPairs_terminates (dep : SMap Bytes) (pairs : List (Bytes × α)) : ∀ (todo : List (Bytes × Bytes)),
    (∀ p ∈ todo, smGet dep p.1 = some p.2) →
    ((∃ f ps, depPairs dep f pairs todo = some ps) ↔ ∀ p ∈ todo, (∃ e, DepEnd dep p.2 e) ∨ DepReach dep p.1 p.2) := by
  intro todo
  induction todo with
  | nil => intro _; simp [depPairs]
  | cons p rest ih =>
    obtain ⟨d, t⟩ := p
    intro hd
    have hd0 : smGet dep d = some t := hd (d, t) (List.mem_cons_self ..)
    have ih' := ih (fun p hp => hd p (List.mem_cons_of_mem _ hp))
    have ht := chaseDep_terminates dep d t hd0
    constructor
    · rintro ⟨f, ps, h⟩ p hp
      simp only [depPairs] at h
      cases hc : chaseDep dep d f t with
      | none => rw [hc] at h; cases h
      | some found =>
        rw [hc] at h
        simp only at h
        cases hr : depPairs dep f pairs rest with
        | none => rw [hr] at h; cases h
        | some ps' =>
          rcases List.mem_cons.1 hp with rfl | hp
          · exact ht.1 ⟨f, _, hc⟩
          · exact ih'.1 ⟨f, ps', hr⟩ p hp
    · intro h
      obtain ⟨f1, r, h1⟩ := ht.2 (h (d, t) (List.mem_cons_self ..))
      obtain ⟨f2, ps, h2⟩ := ih'.2 (fun p hp => h p (List.mem_cons_of_mem _ hp))
      refine ⟨max f1 f2, ?_⟩
      simp only [depPairs, chaseDep_mono dep d f1 (max f1 f2) t r (Nat.le_max_left ..) h1, depPairs_mono (Nat.le_max_right f1 f2) h2]
      cases r with
      | none => exact ⟨_, rfl⟩
      | some k => cases hf : findValueByKey pairs k <;> simp only [hf] <;> exact ⟨_, rfl⟩

/-! ### setStructFieldAt -/

section
variable {ε : Type} {idx : Bytes → List Nat} {tag : Nat → Option Bytes} {assign : Nat → Option ε}

/-- Keys of `K` not visited yet. -/
def unvisited (K visited : List Bytes) : Nat := (K.filter fun k => !visited.contains k).length

theorem unvisited_le {K v v' : List Bytes} (h : ∀ k ∈ v, k ∈ v') : unvisited K v' ≤ unvisited K v := by
  unfold unvisited
  induction K with
  | nil => simp
  | cons k r ih =>
    simp only [List.filter_cons]
    split
    · rename_i h1
      rw [if_pos]
      · simp only [List.length_cons]; omega
      · simp only [Bool.not_eq_true', List.contains_eq_mem, decide_eq_false_iff_not] at h1 ⊢
        exact fun hm => h1 (h k hm)
    · split
      · simp only [List.length_cons]; omega
      · exact ih

theorem unvisited_lt {K v : List Bytes} {k : Bytes} (hk : k ∈ K) (hv : k ∉ v) : unvisited K (k :: v) < unvisited K v := by
  unfold unvisited
  induction K with
  | nil => cases hk
  | cons j r ih =>
    simp only [List.filter_cons]
    have hle : (r.filter fun x => !(k :: v).contains x).length ≤ (r.filter fun x => !v.contains x).length :=
      unvisited_le (K := r) (v := v) (v' := k :: v) (fun x hx => List.mem_cons_of_mem _ hx)
    by_cases hj : j = k
    · subst hj
      rw [if_neg (by simp), if_pos (by simpa using hv)]
      simp only [List.length_cons]; omega
    · have := ih (by rcases List.mem_cons.1 hk with h | h; exact absurd h.symm hj; exact h)
      by_cases hjv : j ∈ v
      · rw [if_neg (by simp [hjv]), if_neg (by simp [hjv])]; exact this
      · rw [if_pos (by simp [hjv, hj]), if_pos (by simp [hjv])]
        simp only [List.length_cons]; omega

/-- What one call promises. -/
def SetOk (idx : Bytes → List Nat) (tag : Nat → Option Bytes) (K : List Bytes) (key : Bytes) (visited : List Bytes)
    (r : List Nat × List Bytes × Option ε) : Prop :=
  (∀ k ∈ visited, k ∈ r.2.1) ∧ (∀ k ∈ r.2.1, k ∈ visited ∨ k ∈ K) ∧
  (∀ i ∈ r.1, StandsFor idx tag key i) ∧
  (r.2.2 = none → key ∈ r.2.1 ∧ ∀ k ∈ r.2.1, k ∈ visited ∨ ∀ i ∈ idx k, i ∈ r.1 ∧ ∀ k', tag i = some k' → k' ∈ r.2.1)

theorem setFieldLoop_ok {K : List Bytes} {again : Bytes → List Bytes → Option (List Nat × List Bytes × Option ε)} {n : Nat}
    (ha : ∀ k visited, k ∈ K → unvisited K visited ≤ n → ∃ r, again k visited = some r ∧ SetOk idx tag K k visited r)
    (hK : ∀ i k, tag i = some k → k ∈ K) {key : Bytes} : ∀ (is : List Nat) (visited : List Bytes), unvisited K visited ≤ n →
    (∀ i ∈ is, i ∈ idx key) →
    ∃ r, setFieldLoop tag assign again is visited = some r ∧
      (∀ k ∈ visited, k ∈ r.2.1) ∧ (∀ k ∈ r.2.1, k ∈ visited ∨ k ∈ K) ∧
      (∀ i ∈ r.1, StandsFor idx tag key i) ∧
      (r.2.2 = none → (∀ i ∈ is, i ∈ r.1 ∧ ∀ k', tag i = some k' → k' ∈ r.2.1) ∧
        ∀ k ∈ r.2.1, k ∈ visited ∨ ∀ i ∈ idx k, i ∈ r.1 ∧ ∀ k', tag i = some k' → k' ∈ r.2.1) := by
  intro is
  induction is with
  | nil => intro visited _ _; exact ⟨_, rfl, fun k h => h, fun k h => Or.inl h, by simp, fun _ => ⟨by simp, fun k h => Or.inl h⟩⟩
  | cons i is ih =>
    intro visited hn hidx
    have hi : i ∈ idx key := hidx i (List.mem_cons_self ..)
    have his : ∀ j ∈ is, j ∈ idx key := fun j hj => hidx j (List.mem_cons_of_mem _ hj)
    simp only [setFieldLoop]
    cases hass : assign i with
    | some e =>
      refine ⟨_, rfl, fun k h => h, fun k h => Or.inl h, ?_, by simp⟩
      intro j hj
      rw [List.mem_singleton.1 hj]; exact .here hi
    | none =>
      simp only
      cases ht : tag i with
      | none =>
        obtain ⟨r, hr, h1, h2, h3, h4⟩ := ih visited hn his
        obtain ⟨w, v, e⟩ := r
        simp only [hr]
        refine ⟨_, rfl, h1, h2, ?_, ?_⟩
        · intro j hj
          rcases List.mem_cons.1 hj with rfl | hj
          · exact .here hi
          · exact h3 j hj
        · intro he
          obtain ⟨h5, h6⟩ := h4 he
          refine ⟨?_, ?_⟩
          · intro j hj
            rcases List.mem_cons.1 hj with rfl | hj
            · exact ⟨List.mem_cons_self .., by simp [ht]⟩
            · exact ⟨List.mem_cons_of_mem _ (h5 j hj).1, (h5 j hj).2⟩
          · intro k hk
            rcases h6 k hk with h | h
            · exact Or.inl h
            · exact Or.inr fun j hj => ⟨List.mem_cons_of_mem _ (h j hj).1, (h j hj).2⟩
      | some k =>
        obtain ⟨r1, hr1, a1, a2, a3, a4⟩ := ha k visited (hK i k ht) hn
        obtain ⟨w1, v1, e1⟩ := r1
        simp only [hr1]
        cases e1 with
        | some e =>
          refine ⟨_, rfl, a1, a2, ?_, by simp⟩
          intro j hj
          rcases List.mem_cons.1 hj with rfl | hj
          · exact .here hi
          · exact .next hi ht (a3 j hj)
        | none =>
          obtain ⟨a5, a6⟩ := a4 rfl
          obtain ⟨r, hr, h1, h2, h3, h4⟩ := ih v1 (Nat.le_trans (unvisited_le a1) hn) his
          obtain ⟨w2, v2, e2⟩ := r
          simp only [hr]
          refine ⟨_, rfl, fun k hk => h1 k (a1 k hk), ?_, ?_, ?_⟩
          · intro k' hk'
            rcases h2 k' hk' with h | h
            · exact a2 k' h
            · exact Or.inr h
          · intro j hj
            rcases List.mem_cons.1 hj with rfl | hj
            · exact .here hi
            · rcases List.mem_append.1 hj with hj | hj
              · exact .next hi ht (a3 j hj)
              · exact h3 j hj
          · intro he
            obtain ⟨h5, h6⟩ := h4 he
            have lift : ∀ j, j ∈ w2 → j ∈ i :: (w1 ++ w2) := fun j hj => List.mem_cons_of_mem _ (List.mem_append_right _ hj)
            have lift1 : ∀ j, j ∈ w1 → j ∈ i :: (w1 ++ w2) := fun j hj => List.mem_cons_of_mem _ (List.mem_append_left _ hj)
            refine ⟨?_, ?_⟩
            · intro j hj
              rcases List.mem_cons.1 hj with rfl | hj
              · refine ⟨List.mem_cons_self .., ?_⟩
                intro k' hk'
                rw [ht] at hk'; cases hk'
                exact h1 _ a5
              · exact ⟨lift j (h5 j hj).1, (h5 j hj).2⟩
            · intro k' hk'
              rcases h6 k' hk' with h | h
              · rcases a6 k' h with h' | h'
                · exact Or.inl h'
                · exact Or.inr fun j hj => ⟨lift1 j (h' j hj).1, fun k'' hk'' => h1 k'' ((h' j hj).2 k'' hk'')⟩
              · exact Or.inr fun j hj => ⟨lift j (h j hj).1, (h j hj).2⟩

theorem setStructFieldAt_ok {K : List Bytes} (hK : ∀ i k, tag i = some k → k ∈ K) : ∀ (f : Nat) (key : Bytes) (visited : List Bytes),
    key ∈ K → unvisited K visited < f → ∃ r, setStructFieldAt idx tag assign f key visited = some r ∧ SetOk idx tag K key visited r := by
  intro f
  induction f with
  | zero => intro key visited _ h; omega
  | succ f ih =>
    intro key visited hkey hf
    simp only [setStructFieldAt]
    split
    · rename_i hv
      exact ⟨_, rfl, fun k h => h, fun k h => Or.inl h, by simp, fun _ => ⟨hv, fun k h => Or.inl h⟩⟩
    · rename_i hv
      have hlt := unvisited_lt hkey hv
      obtain ⟨r, hr, h1, h2, h3, h4⟩ := setFieldLoop_ok (K := K) (again := setStructFieldAt idx tag assign f) (n := f - 1) (assign := assign)
        (fun k v hk hn => ih k v hk (by omega)) hK (key := key) (idx key) (key :: visited) (by omega) (fun i h => h)
      refine ⟨r, hr, fun k hk => h1 k (List.mem_cons_of_mem _ hk), ?_, h3, ?_⟩
      · intro k hk
        rcases h2 k hk with h | h
        · rcases List.mem_cons.1 h with rfl | h
          · exact Or.inr hkey
          · exact Or.inl h
        · exact Or.inr h
      · intro he
        obtain ⟨h5, h6⟩ := h4 he
        refine ⟨h1 key (List.mem_cons_self ..), ?_⟩
        intro k hk
        rcases h6 k hk with h | h
        · rcases List.mem_cons.1 h with rfl | h
          · exact Or.inr h5
          · exact Or.inl h
        · exact Or.inr h

/-- From the top: everything the key stands for is written. -/
theorem setOk_complete {K : List Bytes} {key : Bytes} {r : List Nat × List Bytes × Option ε} (h : SetOk idx tag K key [] r)
    (he : r.2.2 = none) (i : Nat) : i ∈ r.1 ↔ StandsFor idx tag key i := by
  obtain ⟨_, _, h3, h4⟩ := h
  obtain ⟨h5, h6⟩ := h4 he
  refine ⟨h3 i, fun hs => ?_⟩
  suffices ∀ k i, StandsFor idx tag k i → k ∈ r.2.1 → i ∈ r.1 from this key i hs h5
  clear hs
  intro k i hs
  induction hs with
  | here hi =>
    intro hk
    rcases h6 _ hk with h | h
    · cases h
    · exact (h _ hi).1
  | next hj ht _ ih =>
    intro hk
    rcases h6 _ hk with h | h
    · cases h
    · exact ih ((h _ hj).2 _ ht)

theorem setFieldLoop_noerr {again : Bytes → List Bytes → Option (List Nat × List Bytes × Option ε)} (hass : ∀ i, assign i = none)
    (ha : ∀ k v r, again k v = some r → r.2.2 = none) : ∀ (is : List Nat) (v : List Bytes) (r : List Nat × List Bytes × Option ε),
    setFieldLoop tag assign again is v = some r → r.2.2 = none := by
  intro is
  induction is with
  | nil => intro v r h; cases h; rfl
  | cons i is ih =>
    intro v r h
    simp only [setFieldLoop, hass i] at h
    split at h
    · split at h
      · cases h
      · rename_i hr; have h' := ih _ _ hr; cases h; exact h'
    · split at h
      · cases h
      · rename_i hr; exact absurd (ha _ _ _ hr) (by simp)
      · split at h
        · cases h
        · rename_i hr; have h' := ih _ _ hr; cases h; exact h'

theorem setStructFieldAt_noerr (hass : ∀ i, assign i = none) : ∀ (f : Nat) (key : Bytes) (v : List Bytes) {r : List Nat × List Bytes × Option ε},
    setStructFieldAt idx tag assign f key v = some r → r.2.2 = none := by
  intro f
  induction f with
  | zero => intro key v r h; cases h
  | succ f ih =>
    intro key v r h
    simp only [setStructFieldAt] at h
    split at h
    · cases h; rfl
    · exact setFieldLoop_noerr hass (fun k v r hr => ih k v hr) _ _ _ h

theorem setFieldLoop_mono {again again' : Bytes → List Bytes → Option (List Nat × List Bytes × Option ε)}
    (ha : ∀ k v r, again k v = some r → again' k v = some r) : ∀ (is : List Nat) (v : List Bytes) (r : List Nat × List Bytes × Option ε),
    setFieldLoop tag assign again is v = some r → setFieldLoop tag assign again' is v = some r := by
  intro is
  induction is with
  | nil => intro v r h; exact h
  | cons i is ih =>
    intro v r h
    simp only [setFieldLoop] at h ⊢
    cases ha1 : assign i with
    | some e => rw [ha1] at h; exact h
    | none =>
      simp only [ha1] at h ⊢
      cases ht : tag i with
      | none =>
        simp only [ht] at h ⊢
        cases hl : setFieldLoop tag assign again is v with
        | none => rw [hl] at h; cases h
        | some q => rw [hl] at h; rw [ih _ _ hl]; exact h
      | some k =>
        simp only [ht] at h ⊢
        cases hk : again k v with
        | none => rw [hk] at h; cases h
        | some q =>
          rw [ha _ _ _ hk]
          rw [hk] at h
          obtain ⟨w1, v1, e1⟩ := q
          cases e1 with
          | some e => exact h
          | none =>
            simp only at h ⊢
            cases hl : setFieldLoop tag assign again is v1 with
            | none => rw [hl] at h; cases h
            | some q => rw [hl] at h; rw [ih _ _ hl]; exact h

theorem setStructFieldAt_mono : ∀ {f g : Nat} {key : Bytes} {v : List Bytes} {r : List Nat × List Bytes × Option ε}, f ≤ g →
    setStructFieldAt idx tag assign f key v = some r → setStructFieldAt idx tag assign g key v = some r := by
  intro f
  induction f with
  | zero => intro g key v r _ h; cases h
  | succ f ih =>
    intro g key v r hg h
    obtain ⟨g, rfl⟩ : ∃ g', g = g' + 1 := ⟨g - 1, by omega⟩
    simp only [setStructFieldAt] at h ⊢
    split at h
    · rename_i hv; rw [if_pos hv]; exact h
    · rename_i hv; rw [if_neg hv]
      exact setFieldLoop_mono (fun k v r hr => ih (by omega) hr) _ _ _ h

/-- Fields written by a call are distinct and belong to keys visited by it. -/
def OnceOk (idx : Bytes → List Nat) (visited : List Bytes) (r : List Nat × List Bytes × Option ε) : Prop :=
  r.1.Nodup ∧ (∀ k ∈ visited, k ∈ r.2.1) ∧ ∀ i ∈ r.1, ∃ k, i ∈ idx k ∧ k ∈ r.2.1 ∧ k ∉ visited

theorem setFieldLoop_once (hd : ∀ k k' i, i ∈ idx k → i ∈ idx k' → k = k')
    {again : Bytes → List Bytes → Option (List Nat × List Bytes × Option ε)} (ha : ∀ k v r, again k v = some r → OnceOk idx v r) {key : Bytes} :
    ∀ (is : List Nat) (v : List Bytes) (r : List Nat × List Bytes × Option ε), setFieldLoop tag assign again is v = some r →
    key ∈ v → is.Nodup → (∀ i ∈ is, i ∈ idx key) →
    r.1.Nodup ∧ (∀ k ∈ v, k ∈ r.2.1) ∧ ∀ i ∈ r.1, i ∈ is ∨ ∃ k, i ∈ idx k ∧ k ∈ r.2.1 ∧ k ∉ v := by
  intro is
  induction is with
  | nil => intro v r h _ _ _; cases h; exact ⟨by simp, fun k h => h, by simp⟩
  | cons i is ih =>
    intro v r h hkey hnd hidx
    obtain ⟨hi, hnd'⟩ := List.nodup_cons.1 hnd
    have hik : i ∈ idx key := hidx i (List.mem_cons_self ..)
    have his : ∀ j ∈ is, j ∈ idx key := fun j hj => hidx j (List.mem_cons_of_mem _ hj)
    simp only [setFieldLoop] at h
    split at h
    · cases h; exact ⟨by simp, fun k h => h, by simp⟩
    · split at h
      · split at h
        · cases h
        · rename_i w v' e hr
          cases h
          obtain ⟨h1, h2, h3⟩ := ih _ _ hr hkey hnd' his
          refine ⟨List.nodup_cons.2 ⟨?_, h1⟩, h2, ?_⟩
          · intro hm
            rcases h3 i hm with h | ⟨k, h4, _, h5⟩
            · exact hi h
            · rw [hd _ _ _ hik h4] at hkey; exact h5 hkey
          · intro j hj
            rcases List.mem_cons.1 hj with rfl | hj
            · exact Or.inl (List.mem_cons_self ..)
            · rcases h3 j hj with h | h
              · exact Or.inl (List.mem_cons_of_mem _ h)
              · exact Or.inr h
      · split at h
        · cases h
        · rename_i w1 v1 e hr
          cases h
          obtain ⟨a1, a2, a3⟩ := ha _ _ _ hr
          refine ⟨List.nodup_cons.2 ⟨?_, a1⟩, a2, ?_⟩
          · intro hm
            obtain ⟨k, h4, _, h5⟩ := a3 i hm
            rw [hd _ _ _ hik h4] at hkey; exact h5 hkey
          · intro j hj
            rcases List.mem_cons.1 hj with rfl | hj
            · exact Or.inl (List.mem_cons_self ..)
            · exact Or.inr (a3 j hj)
        · rename_i w1 v1 hr
          split at h
          · cases h
          · rename_i w2 v2 e hr2
            cases h
            obtain ⟨a1, a2, a3⟩ := ha _ _ _ hr
            obtain ⟨h1, h2, h3⟩ := ih _ _ hr2 (a2 _ hkey) hnd' his
            refine ⟨List.nodup_cons.2 ⟨?_, List.nodup_append.2 ⟨a1, h1, ?_⟩⟩, fun k hk => h2 k (a2 k hk), ?_⟩
            · intro hm
              rcases List.mem_append.1 hm with hm | hm
              · obtain ⟨k, h4, _, h5⟩ := a3 i hm
                rw [hd _ _ _ hik h4] at hkey; exact h5 hkey
              · rcases h3 i hm with h | ⟨k, h4, _, h5⟩
                · exact hi h
                · rw [hd _ _ _ hik h4] at hkey; exact h5 (a2 _ hkey)
            · rintro j hj1 _ hj2 rfl
              obtain ⟨k, h4, h5, h6⟩ := a3 j hj1
              rcases h3 j hj2 with h | ⟨k', h7, _, h8⟩
              · rw [hd _ _ _ (his j h) h4] at hkey; exact h6 hkey
              · rw [hd _ _ _ h4 h7] at h5; exact h8 h5
            · intro j hj
              rcases List.mem_cons.1 hj with rfl | hj
              · exact Or.inl (List.mem_cons_self ..)
              · rcases List.mem_append.1 hj with hj | hj
                · obtain ⟨k, h4, h5, h6⟩ := a3 j hj
                  exact Or.inr ⟨k, h4, h2 k h5, h6⟩
                · rcases h3 j hj with h | ⟨k', h7, h9, h8⟩
                  · exact Or.inl (List.mem_cons_of_mem _ h)
                  · exact Or.inr ⟨k', h7, h9, fun hv => h8 (a2 _ hv)⟩

theorem setStructFieldAt_once (hn : ∀ k, (idx k).Nodup) (hd : ∀ k k' i, i ∈ idx k → i ∈ idx k' → k = k') :
    ∀ (f : Nat) (key : Bytes) (v : List Bytes) (r : List Nat × List Bytes × Option ε),
    setStructFieldAt idx tag assign f key v = some r → OnceOk idx v r := by
  intro f
  induction f with
  | zero => intro key v r h; cases h
  | succ f ih =>
    intro key v r h
    simp only [setStructFieldAt] at h
    split at h
    · cases h; exact ⟨by simp, fun k h => h, by simp⟩
    · rename_i hv
      obtain ⟨h1, h2, h3⟩ := setFieldLoop_once hd (fun k v r hr => ih k v r hr) (key := key) _ _ _ h (List.mem_cons_self ..) (hn key) (fun i h => h)
      refine ⟨h1, fun k hk => h2 k (List.mem_cons_of_mem _ hk), ?_⟩
      intro i hi
      rcases h3 i hi with h | ⟨k, h4, h5, h6⟩
      · exact ⟨key, h, h2 _ (List.mem_cons_self ..), hv⟩
      · exact ⟨k, h4, h5, fun h => h6 (List.mem_cons_of_mem _ h)⟩

end

end Jsonutils
