import Verif.Proofs.MarshalFacts
import Verif.Props.Session

namespace Jsonutils

variable {ord : SMap Bytes → List (Bytes × Bytes)} {oe : Bool}

theorem findValueByKey_mem {α : Type} {ps : List (Bytes × α)} (hn : (ps.map (·.1)).Nodup) (k : Bytes) (v : α) :
    findValueByKey ps k = some v ↔ (k, v) ∈ ps := by
  induction ps with
  | nil => simp [findValueByKey]
  | cons e ps ih =>
    obtain ⟨k', v'⟩ := e
    rw [List.map_cons, List.nodup_cons] at hn
    simp only [findValueByKey, List.mem_cons, Prod.mk.injEq]
    split
    · rename_i hk
      subst hk
      constructor
      · rintro h; cases h; left; exact ⟨rfl, rfl⟩
      · rintro (⟨_, rfl⟩ | h)
        · rfl
        · exact absurd (List.mem_map.2 ⟨_, h, rfl⟩) hn.1
    · rename_i hk
      rw [ih hn.2]
      constructor
      · exact .inr
      · rintro (⟨rfl, _⟩ | h)
        · exact absurd rfl hk
        · exact h

/-- The keys of the pairs of a struct, in field order. -/
theorem marf_keys : ∀ (fs : List (FInfo × TV)) (ps : List (Bytes × J)) (dep : SMap Bytes), TV.marf ord oe fs = some (ps, dep) →
    (ps.map (·.1)).Sublist ((fs.filter fun f => !f.1.ignore).map (·.1.name))
  | [], ps, dep, h => by simp only [TV.marf] at h; cases h; simp
  | (i, x) :: fs, ps, dep, h => by
    simp only [TV.marf] at h
    rw [List.filter_cons]
    split at h
    · rename_i hi
      rw [if_neg (by simp [hi])]; exact marf_keys fs ps dep h
    · rename_i hi
      rw [if_pos (by simpa using hi), List.map_cons]
      split at h
      · split at h
        · cases h
        · rename_i hr
          cases h
          exact (marf_keys fs _ _ hr).cons _
      · split at h
        · cases h
        · rename_i o hx
          split at h
          · cases h
          · rename_i hr
            cases h
            cases o with
            | none => exact (marf_keys fs _ _ hr).cons _
            | some y => exact (marf_keys fs _ _ hr).cons_cons _

theorem sorted_keys_nodupM {α : Type} {m : SMap α} (hs : SMap.Sorted m) : (m.map (·.1)).Nodup := by
  rw [List.nodup_iff_pairwise_ne, List.pairwise_map]
  exact hs.imp fun h => blt_ne h

theorem distinct_name {α : Type} {fs : List (FInfo × α)} (hd : DistinctNames fs) {i i' : FInfo} {x x' : α} (h1 : (i, x) ∈ fs) (h2 : (i', x') ∈ fs)
    (hi : i.ignore = false) (hi' : i'.ignore = false) (hn : i.name = i'.name) : (i, x) = (i', x') := by
  unfold DistinctNames at hd
  have m1 : (i, x) ∈ fs.filter fun f => !f.1.ignore := List.mem_filter.2 ⟨h1, by simp [hi]⟩
  have m2 : (i', x') ∈ fs.filter fun f => !f.1.ignore := List.mem_filter.2 ⟨h2, by simp [hi']⟩
  generalize fs.filter (fun f => !f.1.ignore) = l at hd m1 m2
  induction l with
  | nil => cases m1
  | cons e l ih =>
    rw [List.map_cons, List.nodup_cons] at hd
    rcases List.mem_cons.1 m1 with m1 | m1 <;> rcases List.mem_cons.1 m2 with m2 | m2
    · rw [m1, m2]
    · exact absurd (List.mem_map.2 ⟨_, m2, by rw [← m1]; exact hn.symm⟩) hd.1
    · exact absurd (List.mem_map.2 ⟨_, m1, by rw [← m2]; exact hn⟩) hd.1
    · exact ih hd.2 m1 m2

theorem depEnd_end {dep : SMap Bytes} {k e : Bytes} (h : DepEnd dep k e) : smGet dep e = none := by
  induction h with
  | here h => exact h
  | next _ _ ih => exact ih

/-- The dictionary of a struct. -/
theorem struct_spec (hord : ∀ dep, (ord dep).Perm dep) {fs : List (FInfo × TV)} (hd : DistinctNames fs) {ps : List (Bytes × J)} {dep : SMap Bytes} {j : J}
    (hf : TV.marf ord oe fs = some (ps, dep)) (hj : structJ ord oe none ps dep = some (some j)) :
    ∃ m, j = .dict 0 m ∧ ∀ k v, smGet m k = some v ↔ (k, v) ∈ ps ∨
      ∃ k' e, smGet (depMap fs) k = some k' ∧ DepEnd (depMap fs) k' e ∧ (e, v) ∈ ps := by
  have hdep := marf_dep fs ps dep hf
  subst hdep
  unfold structJ at hj
  split at hj
  · cases hj
  · rename_i dps hdp
    rw [if_neg (by simp [optEmpty])] at hj
    unfold forceJ at hj
    rw [if_neg (by simp [optForce])] at hj
    cases hj
    refine ⟨_, rfl, fun k v => ?_⟩
    have hps : (ps.map (·.1)).Nodup := (marf_keys fs ps _ hf).nodup hd
    have hchar := (Props.C41_result (depMap fs) (depMap_sorted fs) ps (ord (depMap fs)) (hord _) _ dps hdp).1
    have hdn : (dps.map (·.1)).Nodup := by
      refine (depPairs_keys hdp).nodup ?_
      rw [((hord _).map _).nodup_iff]
      exact sorted_keys_nodupM (depMap_sorted fs)
    have hnod : ((ps ++ dps).map (·.1)).Nodup := by
      rw [List.map_append, List.nodup_append]
      refine ⟨hps, hdn, ?_⟩
      intro a ha b hb hab
      subst hab
      obtain ⟨⟨k1, v1⟩, h1, rfl⟩ := List.mem_map.1 ha
      obtain ⟨⟨k2, v2⟩, h2, h3⟩ := List.mem_map.1 hb
      simp only at h3
      subst h3
      obtain ⟨i, x, m1, p1, n1, _⟩ := ((marf_mem fs ps _ hf).1 k2 v1).1 h1
      obtain ⟨k', e, g1, _⟩ := (hchar k2 v2).1 h2
      obtain ⟨i', x', m2, p2, n2, d2⟩ := depMap_mem fs k2 k' g1
      have := distinct_name hd m1 m2 p1.1 p2 (by rw [n1, n2])
      cases this
      rw [p1.2] at d2; cases d2
    rw [pairsDict_get _ hnod, List.mem_append, hchar]
    simp only [findValueByKey_mem hps]

theorem unfs_get {h : List GV} {xs : List GV} {ts : List TV} (hu : Unfs h xs ts) : xs.length = ts.length ∧
    ∀ (i : Nat) x, xs[i]? = some x → ∃ t, ts[i]? = some t ∧ Unf h x t := by
  refine (Unf.induct (h := h) (P := fun _ _ => True) (Ps := fun xs ts => xs.length = ts.length ∧
    ∀ (i : Nat) x, xs[i]? = some x → ∃ t, ts[i]? = some t ∧ Unf h x t) (Pm := fun _ _ => True) (Pf := fun _ _ => True)
    (by simp) (by simp) (by simp) (by simp) (by simp) (by simp) (by simp) (by simp) ⟨rfl, by simp⟩ ?_ (by simp) (by simp) (by simp) (by simp)).2.1 hu
  intro x xs t ts h1 _ _ ⟨h2, h3⟩
  refine ⟨by simp [h2], fun i y hy => ?_⟩
  cases i with
  | zero => simp only [List.getElem?_cons_zero, Option.some.injEq] at hy; subst hy; exact ⟨t, rfl, h1⟩
  | succ i => simp only [List.getElem?_cons_succ] at hy ⊢; exact h3 i y hy

theorem unff_mem {h : List GV} {xs : List (FInfo × GV)} {ts : List (FInfo × TV)} (hu : Unff h xs ts) :
    xs.map (·.1) = ts.map (·.1) ∧ (∀ i x, (i, x) ∈ xs → ∃ t, (i, t) ∈ ts ∧ Unf h x t) ∧ (∀ i t, (i, t) ∈ ts → ∃ x, (i, x) ∈ xs ∧ Unf h x t) := by
  refine (Unf.induct (h := h) (P := fun _ _ => True) (Pf := fun xs ts => xs.map (·.1) = ts.map (·.1) ∧
    (∀ i x, (i, x) ∈ xs → ∃ t, (i, t) ∈ ts ∧ Unf h x t) ∧ (∀ i t, (i, t) ∈ ts → ∃ x, (i, x) ∈ xs ∧ Unf h x t)) (Pm := fun _ _ => True) (Ps := fun _ _ => True)
    (by simp) (by simp) (by simp) (by simp) (by simp) (by simp) (by simp) (by simp) (by simp) (by simp) (by simp) (by simp) (by simp) ?_).2.2.2 hu
  intro i x xs t ts h1 _ _ ⟨h2, h3, h4⟩
  refine ⟨by simp [h2], ?_, ?_⟩
  · intro i' x' hm
    rcases List.mem_cons.1 hm with hm | hm
    · cases hm; exact ⟨t, by simp, h1⟩
    · obtain ⟨t', a, b⟩ := h3 i' x' hm; exact ⟨t', by simp [a], b⟩
  · intro i' x' hm
    rcases List.mem_cons.1 hm with hm | hm
    · cases hm; exact ⟨x, by simp, h1⟩
    · obtain ⟨t', a, b⟩ := h4 i' x' hm; exact ⟨t', by simp [a], b⟩

theorem distinct_map {α β : Type} : ∀ {xs : List (FInfo × α)} {ts : List (FInfo × β)}, xs.map (·.1) = ts.map (·.1) →
    (DistinctNames xs ↔ DistinctNames ts) ∧ depMap xs = depMap ts := by
  intro xs
  induction xs with
  | nil =>
    intro ts h
    cases ts with
    | nil => exact ⟨by simp [DistinctNames], rfl⟩
    | cons _ _ => cases h
  | cons e xs ih =>
    obtain ⟨i, x⟩ := e
    intro ts h
    cases ts with
    | nil => cases h
    | cons e' ts =>
      obtain ⟨i', t⟩ := e'
      simp only [List.map_cons, List.cons.injEq] at h
      obtain ⟨rfl, h⟩ := h
      obtain ⟨_, h2⟩ := ih h
      constructor
      · unfold DistinctNames
        have key : ∀ {γ : Type} (l : List (FInfo × γ)), (l.filter fun f => !f.1.ignore).map (·.1.name) = ((l.map (·.1)).filter fun i => !i.ignore).map (·.name) := by
          intro γ l
          induction l with
          | nil => rfl
          | cons a l ih => rw [List.filter_cons, List.map_cons, List.filter_cons]; split <;> simp [ih]
        rw [key, key, List.map_cons, List.map_cons, h]
      · simp only [depMap, h2]

/-- From memory to trees. -/
theorem marshal_tree {pick : List Nat → Nat} {h : List GV} {g : GV} {t : TV} (hu : Unf h g t) {n : Nat} {j : J} (hm : marshal ord pick oe h n g = some j) :
    ∃ o, t.mar ord oe none = some o ∧ o.getD .null = j := by
  obtain ⟨N, hN⟩ := marshal_unf (ord := ord) (oe := oe) (pick := pick) hu
  have := hN (max N n) (Nat.le_max_left ..)
  rw [marshal_mono (Nat.le_max_right N n) hm] at this
  cases ht : t.mar ord oe none with
  | none => rw [ht] at this; cases this
  | some o => rw [ht] at this; simp only [Option.map_some, Option.some.injEq] at this; exact ⟨o, rfl, this.symm⟩

theorem tree_marshal {pick : List Nat → Nat} {h : List GV} {g : GV} {t : TV} (hu : Unf h g t) {o : Option J} (ht : t.mar ord oe none = some o) :
    ∃ n, marshal ord pick oe h n g = some (o.getD .null) := by
  obtain ⟨N, hN⟩ := marshal_unf (ord := ord) (oe := oe) (pick := pick) hu
  exact ⟨N, by rw [hN N (Nat.le_refl _), ht]; rfl⟩

/-! ### MarshalAll drops nothing -/

section all
variable {d : MSess → Option FInfo → Nat → Option (MSess × Option MJ)} (hd : ∀ s info a r, d s info a = some r → r.2 ≠ none)
include hd

theorem mar_all : ∀ (g : GV) (s : MSess) (info : Option FInfo) (r : MSess × Option MJ), GV.mar ord false d g s info = some r → r.2 ≠ none
  | .leaf l, s, info, r, h => by
    simp only [GV.mar] at h; cases h
    simp only [ne_eq, Option.map_eq_none_iff]
    rw [leaf_none_iff]; simp
  | .jsonPtr j, s, info, r, h => by simp only [GV.mar] at h; cases h; simp
  | .seq xs, s, info, r, h => by
    simp only [GV.mar] at h
    rw [if_neg (by simp)] at h
    split at h
    · cases h
    · cases h; simp
  | .map xs, s, info, r, h => by
    simp only [GV.mar] at h
    rw [if_neg (by simp)] at h
    split at h
    · cases h
    · cases h; simp
  | .struct xs, s, info, r, h => by
    simp only [GV.mar] at h
    split at h
    · cases h
    · unfold structDict at h
      split at h
      · cases h
      · rename_i hq
        split at hq
        · cases hq
        · rw [if_neg (by simp)] at hq
          cases hq; cases h; simp
  | .iface x, s, info, r, h => by simp only [GV.mar] at h; exact mar_all x s info r h
  | .ptr a, s, info, r, h => by
    simp only [GV.mar] at h
    unfold marshalPtr at h
    split at h
    · cases h; simp
    · simp only at h
      split at h
      · cases h
      · rename_i hb
        cases h
        have := hd _ _ _ _ hb
        simpa using this
  | .shared a, s, info, r, h => by simp only [GV.mar] at h; exact hd _ _ _ _ h

theorem mars_length_aux : ∀ (xs : List GV) (s : MSess) (r : MSess × List MJ), GV.mars ord false d xs s = some r → r.2.length = xs.length
  | [], s, r, h => by simp only [GV.mars] at h; cases h; rfl
  | x :: xs, s, r, h => by
    simp only [GV.mars] at h
    split at h
    · cases h
    · rename_i s1 o hx
      split at h
      · cases h
      · rename_i s2 ys hr
        have h1 := mar_all hd x s none _ hx
        have h2 := mars_length_aux xs _ _ hr
        cases h
        cases o with
        | none => exact absurd rfl h1
        | some y => simpa using h2

theorem marf_all_aux : ∀ (fs : List (FInfo × GV)) (s s' : MSess) (ps : List (Bytes × MJ)) (dep : SMap Bytes), GV.marf ord false d fs s = some (s', ps, dep) →
    ∀ i x, (i, x) ∈ fs → i.Proper → ∃ y, (i.name, y) ∈ ps
  | [], s, s', ps, dep, h => by simp
  | (i, x) :: fs, s, s', ps, dep, h => by
    intro i' x' hm hp
    simp only [GV.marf] at h
    split at h
    · rename_i hi
      rcases List.mem_cons.1 hm with hm | hm
      · cases hm; rw [hp.1] at hi; cases hi
      · exact marf_all_aux fs s s' ps dep h i' x' hm hp
    · split at h
      · rename_i k hk
        split at h
        · cases h
        · rename_i hr
          cases h
          rcases List.mem_cons.1 hm with hm | hm
          · cases hm; rw [hp.2] at hk; cases hk
          · exact marf_all_aux fs _ _ _ _ hr i' x' hm hp
      · split at h
        · cases h
        · rename_i s1 o hx
          have h1 := mar_all hd x s (some i) _ hx
          split at h
          · cases h
          · rename_i hr
            cases h
            cases o with
            | none => exact absurd rfl h1
            | some y =>
              rcases List.mem_cons.1 hm with hm | hm
              · cases hm; exact ⟨y, by simp⟩
              · obtain ⟨y', hy⟩ := marf_all_aux fs _ _ _ _ hr i' x' hm hp
                exact ⟨y', by simp [hy]⟩
end all

theorem gd_all {h : List GV} : ∀ (n : Nat) (s : MSess) (info : Option FInfo) (a : Nat) (r : MSess × Option MJ), gd ord false h n s info a = some r → r.2 ≠ none := by
  intro n
  induction n with
  | zero => intro s info a r hr; cases hr
  | succ n ih =>
    intro s info a r hr
    simp only [gd] at hr
    split at hr
    · cases hr
    · rw [gmar_gd] at hr
      exact mar_all ih _ _ _ _ hr

theorem mars_length {h : List GV} {n : Nat} (xs : List GV) (s s' : MSess) (ys : List MJ) (hr : GV.mars ord false (gd ord false h n) xs s = some (s', ys)) :
    ys.length = xs.length := mars_length_aux (gd_all n) xs s _ hr

theorem marf_all {h : List GV} {n : Nat} (fs : List (FInfo × GV)) (s s' : MSess) (ps : List (Bytes × MJ)) (dep : SMap Bytes)
    (hr : GV.marf ord false (gd ord false h n) fs s = some (s', ps, dep)) (i : FInfo) (x : GV) (hm : (i, x) ∈ fs) (hp : i.Proper) :
    ∃ y, (i.name, y) ∈ ps := marf_all_aux (gd_all n) fs s s' ps dep hr i x hm hp

theorem smGet_mapv {α β : Type} (f : α → β) (m : SMap α) (k : Bytes) : smGet (m.map fun p => (p.1, f p.2)) k = (smGet m k).map f := by
  induction m with
  | nil => rfl
  | cons e m ih =>
    obtain ⟨k', v⟩ := e
    simp only [smGet, List.map_cons, ih]
    split <;> rfl

theorem pairsDict_ne {α : Type} (ps : List (Bytes × α)) (k : Bytes) (v : α) (h : (k, v) ∈ ps) : smGet (pairsDict ps) k ≠ none := by
  unfold pairsDict
  suffices H : ∀ (ps : List (Bytes × α)) (m : SMap α), SMap.Sorted m → ((∃ v, (k, v) ∈ ps) ∨ smGet m k ≠ none) →
      smGet (ps.foldl (fun m p => smAdd m p.1 p.2) m) k ≠ none from H ps [] sorted_nil (.inl ⟨v, h⟩)
  intro ps
  induction ps with
  | nil => rintro m _ (⟨v, h⟩ | h); · cases h
           · exact h
  | cons e ps ih =>
    obtain ⟨k', v'⟩ := e
    intro m hs h
    rw [List.foldl_cons]
    refine ih _ (sorted_smAdd hs _ _) ?_
    rw [smGet_smAdd _ hs]
    by_cases hk : k = k'
    · right; simp [hk]
    · rcases h with ⟨v, h⟩ | h
      · left
        rcases List.mem_cons.1 h with h | h
        · cases h; exact absurd rfl hk
        · exact ⟨v, h⟩
      · right; simpa [hk] using h

theorem leaf_all {l : Leaf} {info : Option FInfo} {j : J} (h : l.marshal info true = some j) : l.marshal info false = some j := by
  cases l with
  | nil => cases h
  | bool b =>
    simp only [Leaf.marshal, marshalBoolean] at h ⊢
    split at h
    · cases h
    · simpa using h
  | int b =>
    simp only [Leaf.marshal, marshalInt64] at h ⊢
    split at h
    · cases h
    · simpa using h
  | float32 b =>
    simp only [Leaf.marshal, marshalFloat32] at h ⊢
    split at h
    · cases h
    · simpa using h
  | float64 b =>
    simp only [Leaf.marshal, marshalFloat64] at h ⊢
    split at h
    · cases h
    · simpa using h
  | str s =>
    simp only [Leaf.marshal, marshalString] at h ⊢
    split at h
    · cases h
    · simpa using h
  | tri t => cases t with
    | none => cases h
    | some b => exact h
  | time t =>
    cases t with
    | none =>
      simp only [Leaf.marshal, marshalTime] at h ⊢
      split at h
      · cases h
      · simpa using h
    | some s => exact h
  | jsonVal j =>
    simp only [Leaf.marshal] at h ⊢
    split at h
    · cases h
    · simpa using h
  | jsonIface j => exact h
  | std j => exact h
  | other => exact h

end Jsonutils
