import Verif.Proofs.Within
import Verif.Proofs.MarshalEnds
import Verif.Proofs.DictMore

/-! `Marshal` and `MarshalAll` side by side, in any memory. -/

namespace Jsonutils

variable {ord : SMap Bytes → List (Bytes × Bytes)}

mutual
/-- `J.Within` before the node ids are set. -/
inductive MJ.Within : MJ → MJ → Prop where
  | same (j) : MJ.Within j j
  | dict {ms : List Nat} {m m' : SMap MJ} : (∀ k, smGet m k ≠ none → smGet m' k ≠ none) →
      (∀ k v v', smGet m k = some v → smGet m' k = some v' → MJ.Within v v') → MJ.Within (.dict ms m) (.dict ms m')
  | arr {xs ys} : MJ.Withins xs ys → MJ.Within (.arr xs) (.arr ys)
inductive MJ.Withins : List MJ → List MJ → Prop where
  | nil : MJ.Withins [] []
  | skip {xs y ys} : MJ.Withins xs ys → MJ.Withins xs (y :: ys)
  | keep {x xs y ys} : MJ.Within x y → MJ.Withins xs ys → MJ.Withins (x :: xs) (y :: ys)
end

theorem MJ.Within.finish (live : Nat → Bool) (pick : List Nat → Nat) {m m' : MJ} (h : m.Within m') : (m.finish live pick).Within (m'.finish live pick) := by
  refine MJ.Within.rec (motive_1 := fun m m' _ => (m.finish live pick).Within (m'.finish live pick))
    (motive_2 := fun m m' _ => J.Withins (MJ.finishs live pick m) (MJ.finishs live pick m')) ?_ ?_ ?_ ?_ ?_ ?_ h
  · intro j; exact .same _
  · intro ms m m' h1 _ ih
    simp only [MJ.finish]
    refine .dict (fun k hk => ?_) (fun k v v' hv hv' => ?_)
    · rw [finishf_map, smGet_map] at hk ⊢
      cases hm : smGet m k with
      | none => rw [hm] at hk; exact absurd rfl hk
      | some v =>
        cases hm' : smGet m' k with
        | none => exact absurd hm' (h1 k (by rw [hm]; simp))
        | some v' => simp
    · rw [finishf_map, smGet_map] at hv hv'
      cases hm : smGet m k with
      | none => rw [hm] at hv; cases hv
      | some w =>
        cases hm' : smGet m' k with
        | none => rw [hm'] at hv'; cases hv'
        | some w' =>
          rw [hm] at hv; rw [hm'] at hv'
          cases hv; cases hv'
          exact ih k w w' hm hm'
  · intro xs ys _ ih
    simp only [MJ.finish]
    exact .arr ih
  · exact .nil
  · intro xs y ys _ ih
    simp only [MJ.finishs]; exact .skip ih
  · intro x xs y ys _ _ ih1 ih2
    simp only [MJ.finishs]; exact .keep ih1 ih2

theorem MJ.Within.mark {m m' : MJ} (id : Nat) (h : m.Within m') : (m.mark id).Within (m'.mark id) := by
  cases h with
  | same => exact .same _
  | dict h1 h2 => exact .dict h1 h2
  | arr h => exact .arr h

/-- Members: each key of the first is in the second, with a larger value. -/
def PSubM (ps qs : List (Bytes × MJ)) : Prop := ∀ k v, (k, v) ∈ ps → ∃ v', (k, v') ∈ qs ∧ v.Within v'

theorem within_pairs {ms : List Nat} {ps qs : List (Bytes × MJ)} (h : PSubM ps qs) (h1 : (ps.map (·.1)).Nodup) (h2 : (qs.map (·.1)).Nodup) :
    (MJ.dict ms (pairsDict ps)).Within (.dict ms (pairsDict qs)) := by
  refine .dict (fun k hk => ?_) (fun k v v' hv hv' => ?_)
  · cases hv : smGet (pairsDict ps) k with
    | none => exact absurd hv hk
    | some v =>
      obtain ⟨v', a, _⟩ := h k v ((pairsDict_get ps h1 k v).1 hv)
      rw [(pairsDict_get qs h2 k v').2 a]; simp
  · obtain ⟨w, a, b⟩ := h k v ((pairsDict_get ps h1 k v).1 hv)
    rw [(pairsDict_get qs h2 k w).2 a] at hv'
    cases hv'; exact b

/-- The two runs side by side: they end for the same inputs, in the same session, and under `Q` one result is inside the other. -/
def Rel2 (Q : Prop) : Option (MSess × Option MJ) → Option (MSess × Option MJ) → Prop
  | none, none => True
  | some (s, o), some (s', o') => s = s' ∧ (Q → ∀ m, o = some m → ∃ m', o' = some m' ∧ m.Within m')
  | _, _ => False

def Rels (Q : Prop) : Option (MSess × List MJ) → Option (MSess × List MJ) → Prop
  | none, none => True
  | some (s, ys), some (s', ys') => s = s' ∧ (Q → MJ.Withins ys ys')
  | _, _ => False

def Relm (Q : Prop) : Option (MSess × List (Bytes × MJ)) → Option (MSess × List (Bytes × MJ)) → Prop
  | none, none => True
  | some (s, ys), some (s', ys') => s = s' ∧ (Q → PSubM ys ys')
  | _, _ => False

def Relf (Q : Prop) : Option (MSess × List (Bytes × MJ) × SMap Bytes) → Option (MSess × List (Bytes × MJ) × SMap Bytes) → Prop
  | none, none => True
  | some (s, ys, dep), some (s', ys', dep') => s = s' ∧ dep = dep' ∧ (Q → PSubM ys ys')
  | _, _ => False

theorem Rel2.imp {Q Q' : Prop} (h : Q' → Q) {r r' : Option (MSess × Option MJ)} (hr : Rel2 Q r r') : Rel2 Q' r r' := by
  cases r with
  | none => cases r' with
    | none => trivial
    | some p => exact hr
  | some p => cases r' with
    | none => exact hr
    | some p' => exact ⟨hr.1, fun q => hr.2 (h q)⟩

theorem depPairs_none {α β : Type} (dep : SMap Bytes) (f : Nat) (ps : List (Bytes × α)) (qs : List (Bytes × β)) : ∀ todo,
    depPairs dep f ps todo = none ↔ depPairs dep f qs todo = none
  | [] => by simp [depPairs]
  | (d, t) :: rest => by
    have ih := depPairs_none dep f ps qs rest
    cases hc : chaseDep dep d f t with
    | none => simp [depPairs, hc]
    | some r =>
      cases h1 : depPairs dep f ps rest with
      | none => have h2 := ih.1 h1; simp [depPairs, hc, h1, h2]
      | some a =>
        cases h2 : depPairs dep f qs rest with
        | none => rw [ih.2 h2] at h1; cases h1
        | some b =>
          cases r with
          | none => simp [depPairs, hc, h1, h2]
          | some k =>
            have e1 : depPairs dep f ps ((d, t) :: rest) ≠ none := by
              simp only [depPairs, hc, h1]
              split <;> simp
            have e2 : depPairs dep f qs ((d, t) :: rest) ≠ none := by
              simp only [depPairs, hc, h2]
              split <;> simp
            exact ⟨fun e => absurd e e1, fun e => absurd e e2⟩

section
variable {oe : Bool} {d : MSess → Option FInfo → Nat → Option (MSess × Option MJ)}

theorem marm_names_gv : ∀ (xs : List (Bytes × GV)) (s s' : MSess) (ps : List (Bytes × MJ)), GV.marm ord oe d xs s = some (s', ps) →
    (ps.map (·.1)).Sublist (xs.map (·.1))
  | [], s, s', ps, h => by simp only [GV.marm] at h; cases h; simp
  | (k, x) :: xs, s, s', ps, h => by
    simp only [GV.marm] at h
    split at h
    · cases h
    · split at h
      · cases h
      · rename_i o hx _ _ ys hs
        have := marm_names_gv xs _ _ ys hs
        cases h
        clear hx
        cases o with
        | none => exact this.cons _
        | some y => exact this.cons_cons _

theorem marf_names_gv : ∀ (xs : List (FInfo × GV)) (s s' : MSess) (ps : List (Bytes × MJ)) (dep : SMap Bytes), GV.marf ord oe d xs s = some (s', ps, dep) →
    (ps.map (·.1)).Sublist ((xs.filter fun f => !f.1.ignore).map (·.1.name)) ∧ ∀ k ∈ ps.map (·.1), ∃ i x, (i, x) ∈ xs ∧ i.Proper ∧ i.name = k
  | [], s, s', ps, dep, h => by simp only [GV.marf] at h; cases h; simp
  | (i, x) :: xs, s, s', ps, dep, h => by
    have up : ∀ {k : Bytes}, (∃ i x, (i, x) ∈ xs ∧ i.Proper ∧ i.name = k) → ∃ i' x', (i', x') ∈ (i, x) :: xs ∧ i'.Proper ∧ i'.name = k :=
      fun ⟨a, b, c, e⟩ => ⟨a, b, List.mem_cons_of_mem _ c, e⟩
    simp only [GV.marf] at h
    by_cases hi : i.ignore = true
    · rw [if_pos hi] at h
      obtain ⟨g1, g2⟩ := marf_names_gv xs _ _ _ _ h
      refine ⟨?_, fun k hk => up (g2 k hk)⟩
      rw [List.filter_cons_of_neg (by simp [hi])]
      exact g1
    · rw [if_neg hi] at h
      rw [List.filter_cons_of_pos (by simp [hi]), List.map_cons]
      cases hk : i.deprecatedBy with
      | some kk =>
        rw [hk] at h
        simp only at h
        split at h
        · cases h
        · rename_i _ ps' d1 h1
          cases h
          obtain ⟨g1, g2⟩ := marf_names_gv xs _ _ _ _ h1
          exact ⟨g1.cons _, fun k hk => up (g2 k hk)⟩
      | none =>
        rw [hk] at h
        simp only at h
        split at h
        · cases h
        · split at h
          · cases h
          · rename_i o hx _ _ ps' d1 h1
            cases h
            clear hx
            obtain ⟨g1, g2⟩ := marf_names_gv xs _ _ _ _ h1
            cases o with
            | none => exact ⟨g1.cons _, fun k hk => up (g2 k hk)⟩
            | some y =>
              refine ⟨g1.cons_cons _, fun k hk' => ?_⟩
              rcases List.mem_cons.1 hk' with rfl | hk'
              · exact ⟨i, x, List.mem_cons_self .., ⟨by simpa using hi, hk⟩, rfl⟩
              · exact up (g2 k hk')

/-- The members of a struct, with the deprecated keys, are distinct. -/
theorem struct_nodup (hord : ∀ dep, (ord dep).Perm dep) {fs : List (FInfo × GV)} (hd : DistinctNames fs) {s s' : MSess} {ps dps : List (Bytes × MJ)} {dep : SMap Bytes}
    (hf : GV.marf ord oe d fs s = some (s', ps, dep)) {f : Nat} (hp : depPairs dep f ps (ord dep) = some dps) :
    (ps.map (·.1)).Nodup ∧ ((ps ++ dps).map (·.1)).Nodup := by
  have hdep := marf_dep_gv fs s s' ps dep hf
  subst hdep
  obtain ⟨g1, g2⟩ := marf_names_gv fs s s' ps _ hf
  have hps : (ps.map (·.1)).Nodup := g1.nodup hd
  have hsub := depPairs_keys hp
  have hdn : (dps.map (·.1)).Nodup := by
    refine hsub.nodup ?_
    rw [((hord _).map _).nodup_iff]
    exact sorted_keys_nodupM (depMap_sorted fs)
  refine ⟨hps, ?_⟩
  rw [List.map_append, List.nodup_append]
  refine ⟨hps, hdn, ?_⟩
  intro a ha b hb hab
  subst hab
  obtain ⟨i, x, m1, p1, n1⟩ := g2 a ha
  have hb' := hsub.subset hb
  obtain ⟨⟨k2, v2⟩, h2, h3⟩ := List.mem_map.1 hb'
  simp only at h3
  subst h3
  obtain ⟨i', x', m2, p2, n2, d2⟩ := depMap_mem fs k2 v2 (smGet_of_mem (depMap_sorted fs) ((hord _).subset h2))
  have := distinct_name hd m1 m2 p1.1 p2 (by rw [n1, n2])
  cases this
  rw [p1.2] at d2; cases d2
end

variable {h : List GV} {d d' : MSess → Option FInfo → Nat → Option (MSess × Option MJ)}

theorem forceStr_id {info : Option FInfo} (h : optForce info = false) (m : MJ) : forceStr info m = m := by
  simp [forceStr, h]

theorem force_false {info : Option FInfo} {g : GV} (h1 : optForce info = true → g.ScalarIn h) (h2 : ¬ g.ScalarIn h) : optForce info = false := by
  cases e : optForce info with
  | false => rfl
  | true => exact absurd (h1 e) h2

mutual
theorem mar_rel (hord : ∀ dep, (ord dep).Perm dep)
    (hd : ∀ s info a, Rel2 ((∀ x ∈ h, x.Regular h) ∧ (optForce info = true → ∃ g, h[a]? = some g ∧ g.ScalarIn h)) (d s info a) (d' s info a)) :
    ∀ (g : GV) (s : MSess) (info : Option FInfo), Rel2 ((∀ x ∈ h, x.Regular h) ∧ g.Regular h ∧ (optForce info = true → g.ScalarIn h))
      (GV.mar ord true d g s info) (GV.mar ord false d' g s info)
  | .leaf l, s, info => by
    simp only [GV.mar]
    refine ⟨rfl, fun _ m hm => ?_⟩
    cases hl : l.marshal info true with
    | none => rw [hl] at hm; cases hm
    | some j =>
      rw [hl] at hm; cases hm
      rw [leaf_all hl]
      exact ⟨_, rfl, .same _⟩
  | .jsonPtr j, s, info => by
    simp only [GV.mar]
    exact ⟨rfl, fun _ m hm => ⟨m, hm, .same _⟩⟩
  | .seq xs, s, info => by
    simp only [GV.mar]
    have ih := mars_rel hord hd xs s
    rw [if_neg (c := xs.isEmpty = true ∧ optEmpty info = true ∧ false = true) (by simp)]
    split
    · rename_i hc
      have hx : xs = [] := by simpa using hc.1
      subst hx
      simp only [GV.mars]
      exact ⟨rfl, fun _ m hm => by cases hm⟩
    · cases h1 : GV.mars ord true d xs s with
      | none =>
        cases h2 : GV.mars ord false d' xs s with
        | none => trivial
        | some p => rw [h1, h2] at ih; exact ih.elim
      | some p =>
        cases h2 : GV.mars ord false d' xs s with
        | none => rw [h1, h2] at ih; exact ih.elim
        | some p' =>
          rw [h1, h2] at ih
          refine ⟨ih.1, fun ⟨q1, q2, q3⟩ m hm => ?_⟩
          have hff := force_false q3 (by intro e; cases e)
          simp only [forceStr_id hff] at hm ⊢
          cases hm
          exact ⟨_, rfl, .arr (ih.2 ⟨q1, by simpa only [GV.Regular] using q2⟩)⟩
  | .map xs, s, info => by
    simp only [GV.mar]
    have ih := marm_rel hord hd xs s
    rw [if_neg (c := xs.isEmpty = true ∧ optEmpty info = true ∧ false = true) (by simp)]
    split
    · rename_i hc
      have hx : xs = [] := by simpa using hc.1
      subst hx
      simp only [GV.marm]
      exact ⟨rfl, fun _ m hm => by cases hm⟩
    · cases h1 : GV.marm ord true d xs s with
      | none =>
        cases h2 : GV.marm ord false d' xs s with
        | none => trivial
        | some p => rw [h1, h2] at ih; exact ih.elim
      | some p =>
        cases h2 : GV.marm ord false d' xs s with
        | none => rw [h1, h2] at ih; exact ih.elim
        | some p' =>
          rw [h1, h2] at ih
          refine ⟨ih.1, fun ⟨q1, q2, q3⟩ m hm => ?_⟩
          have hff := force_false q3 (by intro e; cases e)
          simp only [forceStr_id hff] at hm ⊢
          cases hm
          simp only [GV.Regular] at q2
          exact ⟨_, rfl, within_pairs (ih.2 ⟨q1, q2.2⟩) ((marm_names_gv xs s _ _ h1).nodup q2.1) ((marm_names_gv xs s _ _ h2).nodup q2.1)⟩
  | .struct fs, s, info => by
    simp only [GV.mar]
    have ih := marf_rel hord hd fs s
    cases h1 : GV.marf ord true d fs s with
    | none =>
      cases h2 : GV.marf ord false d' fs s with
      | none => trivial
      | some p => rw [h1, h2] at ih; exact ih.elim
    | some p =>
      cases h2 : GV.marf ord false d' fs s with
      | none => rw [h1, h2] at ih; exact ih.elim
      | some p' =>
        rw [h1, h2] at ih
        obtain ⟨s1, ps, dep⟩ := p
        obtain ⟨s1', ps', dep'⟩ := p'
        obtain ⟨rfl, rfl, ih⟩ := ih
        simp only [structDict]
        cases e1 : depPairs dep (dep.length + 1) ps (ord dep) with
        | none =>
          rw [(depPairs_none dep (dep.length + 1) ps ps' (ord dep)).1 e1]
          trivial
        | some dps =>
          cases e2 : depPairs dep (dep.length + 1) ps' (ord dep) with
          | none => rw [(depPairs_none dep (dep.length + 1) ps ps' (ord dep)).2 e2] at e1; cases e1
          | some dps' =>
            simp only
            rw [if_neg (c := (ps' ++ dps').isEmpty = true ∧ optEmpty info = true ∧ false = true) (by simp)]
            by_cases hc : (ps ++ dps).isEmpty = true ∧ optEmpty info = true ∧ True
            · rw [if_pos hc]
              exact ⟨rfl, fun _ m hm => by cases hm⟩
            · rw [if_neg hc]
              refine ⟨rfl, ?_⟩
              rintro ⟨q1, q2, q3⟩ m hm
              have hff := force_false q3 (by intro e; cases e)
              simp only [forceStr_id hff] at hm ⊢
              cases hm
              simp only [GV.Regular] at q2
              have hsub := ih ⟨q1, q2.2⟩
              obtain ⟨n1, n2⟩ := struct_nodup hord q2.1 h1 e1
              obtain ⟨n1', n2'⟩ := struct_nodup hord q2.1 h2 e2
              refine ⟨_, rfl, within_pairs (fun k v hkv => ?_) n2 n2'⟩
              rcases List.mem_append.1 hkv with hkv | hkv
              · obtain ⟨v', a, b⟩ := hsub k v hkv
                exact ⟨v', List.mem_append_left _ a, b⟩
              · obtain ⟨t, e, a1, a2, a3⟩ := (depPairs_mem e1 k v).1 hkv
                obtain ⟨v', a, b⟩ := hsub e v ((findValueByKey_mem n1 _ _).1 a3)
                exact ⟨v', List.mem_append_right _ ((depPairs_mem e2 k v').2 ⟨t, e, a1, a2, (findValueByKey_mem n1' _ _).2 a⟩), b⟩
  | .iface x, s, info => by
    simp only [GV.mar]
    refine (mar_rel hord hd x s info).imp fun ⟨q1, q2, q3⟩ => ⟨q1, by simpa only [GV.Regular] using q2, fun e => ?_⟩
    cases q3 e with | iface h => exact h
  | .ptr a, s, info => by
    simp only [GV.mar, marshalPtr]
    split
    · exact ⟨rfl, fun _ m hm => ⟨m, hm, .same _⟩⟩
    · rename_i t _
      have := hd ⟨s.nodeIndex + 1, t ++ [⟨s.nodeIndex + 1, a, 1⟩]⟩ info a
      revert this
      generalize d ⟨s.nodeIndex + 1, t ++ [⟨s.nodeIndex + 1, a, 1⟩]⟩ info a = r
      generalize d' ⟨s.nodeIndex + 1, t ++ [⟨s.nodeIndex + 1, a, 1⟩]⟩ info a = r'
      intro this
      cases r with
      | none => cases r' with
        | none => trivial
        | some p => exact this.elim
      | some p => cases r' with
        | none => exact this.elim
        | some p' =>
          obtain ⟨s1, o⟩ := p
          obtain ⟨s1', o'⟩ := p'
          obtain ⟨rfl, ih⟩ := this
          refine ⟨rfl, fun ⟨q1, _, q3⟩ m hm => ?_⟩
          cases o with
          | none => cases hm
          | some w =>
            cases hm
            obtain ⟨w', rfl, hw⟩ := ih ⟨q1, fun e => by cases q3 e with | ptr a b => exact ⟨_, a, b⟩⟩ w rfl
            exact ⟨_, rfl, hw.mark _⟩
  | .shared a, s, info => by
    simp only [GV.mar]
    exact (hd s info a).imp fun ⟨q1, _, q3⟩ => ⟨q1, fun e => by cases q3 e⟩
theorem mars_rel (hord : ∀ dep, (ord dep).Perm dep)
    (hd : ∀ s info a, Rel2 ((∀ x ∈ h, x.Regular h) ∧ (optForce info = true → ∃ g, h[a]? = some g ∧ g.ScalarIn h)) (d s info a) (d' s info a)) :
    ∀ (xs : List GV) (s : MSess), Rels ((∀ x ∈ h, x.Regular h) ∧ GV.Regulars h xs) (GV.mars ord true d xs s) (GV.mars ord false d' xs s)
  | [], s => by simp only [GV.mars]; exact ⟨rfl, fun _ => .nil⟩
  | x :: xs, s => by
    have h1 := mar_rel hord hd x s none
    simp only [GV.mars]
    revert h1
    generalize GV.mar ord true d x s none = r
    generalize GV.mar ord false d' x s none = r'
    intro h1
    cases r with
    | none => cases r' with
      | none => trivial
      | some p => exact h1.elim
    | some p => cases r' with
      | none => exact h1.elim
      | some p' =>
        obtain ⟨s1, o⟩ := p
        obtain ⟨s1', o'⟩ := p'
        obtain ⟨rfl, h1⟩ := h1
        have h2 := mars_rel hord hd xs s1
        simp only
        revert h2
        generalize GV.mars ord true d xs s1 = r
        generalize GV.mars ord false d' xs s1 = r'
        intro h2
        cases r with
        | none => cases r' with
          | none => trivial
          | some p => exact h2.elim
        | some p => cases r' with
          | none => exact h2.elim
          | some p' =>
            obtain ⟨s2, ys⟩ := p
            obtain ⟨s2', ys'⟩ := p'
            obtain ⟨rfl, h2⟩ := h2
            refine ⟨rfl, fun ⟨q1, q2⟩ => ?_⟩
            simp only [GV.Regulars] at q2
            have ih := h2 ⟨q1, q2.2⟩
            cases o with
            | none => cases o' with
              | none => exact ih
              | some _ => exact .skip ih
            | some y =>
              obtain ⟨y', rfl, hy⟩ := h1 ⟨q1, q2.1, (by intro e; cases e)⟩ y rfl
              exact .keep hy ih
theorem marm_rel (hord : ∀ dep, (ord dep).Perm dep)
    (hd : ∀ s info a, Rel2 ((∀ x ∈ h, x.Regular h) ∧ (optForce info = true → ∃ g, h[a]? = some g ∧ g.ScalarIn h)) (d s info a) (d' s info a)) :
    ∀ (xs : List (Bytes × GV)) (s : MSess), Relm ((∀ x ∈ h, x.Regular h) ∧ GV.Regularm h xs) (GV.marm ord true d xs s) (GV.marm ord false d' xs s)
  | [], s => by simp only [GV.marm]; exact ⟨rfl, fun _ k v hm => by cases hm⟩
  | (k, x) :: xs, s => by
    have h1 := mar_rel hord hd x s none
    simp only [GV.marm]
    revert h1
    generalize GV.mar ord true d x s none = r
    generalize GV.mar ord false d' x s none = r'
    intro h1
    cases r with
    | none => cases r' with
      | none => trivial
      | some p => exact h1.elim
    | some p => cases r' with
      | none => exact h1.elim
      | some p' =>
        obtain ⟨s1, o⟩ := p
        obtain ⟨s1', o'⟩ := p'
        obtain ⟨rfl, h1⟩ := h1
        have h2 := marm_rel hord hd xs s1
        simp only
        revert h2
        generalize GV.marm ord true d xs s1 = r
        generalize GV.marm ord false d' xs s1 = r'
        intro h2
        cases r with
        | none => cases r' with
          | none => trivial
          | some p => exact h2.elim
        | some p => cases r' with
          | none => exact h2.elim
          | some p' =>
            obtain ⟨s2, ys⟩ := p
            obtain ⟨s2', ys'⟩ := p'
            obtain ⟨rfl, h2⟩ := h2
            refine ⟨rfl, fun ⟨q1, q2⟩ => ?_⟩
            simp only [GV.Regularm] at q2
            have ih := h2 ⟨q1, q2.2⟩
            cases o with
            | none =>
              intro k' v' hm
              obtain ⟨w, a, b⟩ := ih k' v' hm
              cases o' with
              | none => exact ⟨w, a, b⟩
              | some _ => exact ⟨w, List.mem_cons_of_mem _ a, b⟩
            | some y =>
              obtain ⟨y', rfl, hy⟩ := h1 ⟨q1, q2.1, (by intro e; cases e)⟩ y rfl
              intro k' v' hm
              rcases List.mem_cons.1 hm with hm | hm
              · cases hm; exact ⟨y', List.mem_cons_self, hy⟩
              · obtain ⟨w, a, b⟩ := ih k' v' hm
                exact ⟨w, List.mem_cons_of_mem _ a, b⟩
theorem marf_rel (hord : ∀ dep, (ord dep).Perm dep)
    (hd : ∀ s info a, Rel2 ((∀ x ∈ h, x.Regular h) ∧ (optForce info = true → ∃ g, h[a]? = some g ∧ g.ScalarIn h)) (d s info a) (d' s info a)) :
    ∀ (xs : List (FInfo × GV)) (s : MSess), Relf ((∀ x ∈ h, x.Regular h) ∧ GV.Regularf h xs) (GV.marf ord true d xs s) (GV.marf ord false d' xs s)
  | [], s => by simp only [GV.marf]; exact ⟨rfl, rfl, fun _ k v hm => by cases hm⟩
  | (i, x) :: xs, s => by
    simp only [GV.marf]
    by_cases hi : i.ignore = true
    · simp only [hi, if_true]
      have h2 := marf_rel hord hd xs s
      revert h2
      generalize GV.marf ord true d xs s = r
      generalize GV.marf ord false d' xs s = r'
      intro h2
      cases r with
      | none => cases r' with
        | none => trivial
        | some p => exact h2.elim
      | some p => cases r' with
        | none => exact h2.elim
        | some p' => exact ⟨h2.1, h2.2.1, fun ⟨q1, q2⟩ => h2.2.2 ⟨q1, by simp only [GV.Regularf] at q2; exact q2.2⟩⟩
    · simp only [hi, Bool.false_eq_true, if_false]
      cases hk : i.deprecatedBy with
      | some kk =>
        simp only
        have h2 := marf_rel hord hd xs s
        revert h2
        generalize GV.marf ord true d xs s = r
        generalize GV.marf ord false d' xs s = r'
        intro h2
        cases r with
        | none => cases r' with
          | none => trivial
          | some p => exact h2.elim
        | some p => cases r' with
          | none => exact h2.elim
          | some p' =>
            obtain ⟨s2, ys, dep⟩ := p
            obtain ⟨s2', ys', dep'⟩ := p'
            obtain ⟨rfl, rfl, h2⟩ := h2
            exact ⟨rfl, rfl, fun ⟨q1, q2⟩ => h2 ⟨q1, by simp only [GV.Regularf] at q2; exact q2.2⟩⟩
      | none =>
        have h1 := mar_rel hord hd x s (some i)
        simp only
        revert h1
        generalize GV.mar ord true d x s (some i) = r
        generalize GV.mar ord false d' x s (some i) = r'
        intro h1
        cases r with
        | none => cases r' with
          | none => trivial
          | some p => exact h1.elim
        | some p => cases r' with
          | none => exact h1.elim
          | some p' =>
            obtain ⟨s1, o⟩ := p
            obtain ⟨s1', o'⟩ := p'
            obtain ⟨rfl, h1⟩ := h1
            have h2 := marf_rel hord hd xs s1
            simp only
            revert h2
            generalize GV.marf ord true d xs s1 = r
            generalize GV.marf ord false d' xs s1 = r'
            intro h2
            cases r with
            | none => cases r' with
              | none => trivial
              | some p => exact h2.elim
            | some p => cases r' with
              | none => exact h2.elim
              | some p' =>
                obtain ⟨s2, ys, dep⟩ := p
                obtain ⟨s2', ys', dep'⟩ := p'
                obtain ⟨rfl, rfl, h2⟩ := h2
                refine ⟨rfl, rfl, fun ⟨q1, q2⟩ => ?_⟩
                simp only [GV.Regularf] at q2
                have hx0 : (i.forceString = true → x.ScalarIn h) ∧ x.Regular h := by
                  rcases q2.1 with e | e | e
                  · exact absurd e hi
                  · exact absurd hk e
                  · exact e
                have ih := h2 ⟨q1, q2.2⟩
                cases o with
                | none =>
                  intro k' v' hm
                  obtain ⟨w, a, b⟩ := ih k' v' hm
                  cases o' with
                  | none => exact ⟨w, a, b⟩
                  | some _ => exact ⟨w, List.mem_cons_of_mem _ a, b⟩
                | some y =>
                  obtain ⟨y', rfl, hy⟩ := h1 ⟨q1, hx0.2, hx0.1⟩ y rfl
                  intro k' v' hm
                  rcases List.mem_cons.1 hm with hm | hm
                  · cases hm; exact ⟨y', List.mem_cons_self, hy⟩
                  · obtain ⟨w, a, b⟩ := ih k' v' hm
                    exact ⟨w, List.mem_cons_of_mem _ a, b⟩
end

theorem gmar_rel (hord : ∀ dep, (ord dep).Perm dep) (h : List GV) : ∀ (n : Nat) (g : GV) (s : MSess) (info : Option FInfo),
    Rel2 ((∀ x ∈ h, x.Regular h) ∧ g.Regular h ∧ (optForce info = true → g.ScalarIn h)) (gmar ord true h n g s info) (gmar ord false h n g s info)
  | 0, g, s, info => by
    simp only [gmar]
    exact (mar_rel (h := h) (d := fun _ _ _ => none) (d' := fun _ _ _ => none) hord (fun _ _ _ => trivial) g s info)
  | n + 1, g, s, info => by
    simp only [gmar]
    refine mar_rel hord (fun s info a => ?_) g s info
    cases ha : h[a]? with
    | none => simp only; trivial
    | some v =>
      simp only
      refine (gmar_rel hord h n v s info).imp fun ⟨q1, q2⟩ => ⟨q1, q1 v (List.mem_of_getElem? ha), fun e => ?_⟩
      obtain ⟨g', e1, e2⟩ := q2 e
      cases e1; exact e2

/-- Outside a struct nothing but nil and the undefined tristate is left out, and `MarshalAll` writes null for them. -/
theorem mar_none_gv (hd : ∀ s a s', d s none a = some (s', none) → ∃ s'', d' s none a = some (s'', some (.json .null))) :
    ∀ (g : GV) (s s' : MSess), GV.mar ord true d g s none = some (s', none) → ∃ s'', GV.mar ord false d' g s none = some (s'', some (.json .null))
  | .leaf l, s, s', h => by
    have h' : (TV.leaf l).mar ord true none = some none := by
      simp only [GV.mar, Option.some.injEq, Prod.mk.injEq, Option.map_eq_none_iff] at h
      simp only [TV.mar, h.2]
    have h2 := mar_none_null (.leaf l) h'
    simp only [TV.mar, Option.some.injEq] at h2
    exact ⟨s, by simp only [GV.mar, h2, Option.map_some]⟩
  | .jsonPtr j, s, s', h => by simp only [GV.mar] at h; cases h
  | .seq xs, s, s', h => by
    simp only [GV.mar] at h
    rw [if_neg (by simp [optEmpty])] at h
    split at h <;> cases h
  | .map xs, s, s', h => by
    simp only [GV.mar] at h
    rw [if_neg (by simp [optEmpty])] at h
    split at h <;> cases h
  | .struct fs, s, s', h => by
    simp only [GV.mar] at h
    split at h
    · cases h
    · split at h
      · cases h
      · rename_i o ho
        unfold structDict at ho
        split at ho
        · cases ho
        · simp only at ho
          rw [if_neg (by simp [optEmpty])] at ho
          cases ho; cases h
  | .iface x, s, s', h => by
    simp only [GV.mar] at h ⊢
    exact mar_none_gv hd x s s' h
  | .ptr a, s, s', h => by
    simp only [GV.mar, marshalPtr] at h ⊢
    split at h
    · cases h
    · split at h
      · cases h
      · rename_i s1 o hb
        cases o with
        | some w => cases h
        | none =>
          obtain ⟨s'', e⟩ := hd _ a _ hb
          rw [e]
          exact ⟨_, rfl⟩
  | .shared a, s, s', h => by
    simp only [GV.mar] at h ⊢
    exact hd s a s' h

theorem gmar_none (h : List GV) : ∀ (n : Nat) (g : GV) (s s' : MSess), gmar ord true h n g s none = some (s', none) →
    ∃ s'', gmar ord false h n g s none = some (s'', some (.json .null))
  | 0, g, s, s', hm => by
    simp only [gmar] at hm ⊢
    exact mar_none_gv (fun _ _ _ e => by cases e) g s s' hm
  | n + 1, g, s, s', hm => by
    simp only [gmar] at hm ⊢
    refine mar_none_gv (fun s a s' e => ?_) g s s' hm
    cases ha : h[a]? with
    | none => rw [ha] at e; cases e
    | some v => rw [ha] at e; exact gmar_none h n v s s' e

/-- Whether the call ends does not depend on `omitEmpty`. -/
theorem marshal_all_ends (hord : ∀ dep, (ord dep).Perm dep) (pick : List Nat → Nat) (h : List GV) (n : Nat) (g : GV) :
    marshal ord pick true h n g = none ↔ marshal ord pick false h n g = none := by
  have hr := gmar_rel hord h n g .init none
  unfold marshal
  revert hr
  cases gmar ord true h n g .init none with
  | none =>
    cases gmar ord false h n g .init none with
    | none => intro _; simp
    | some p => intro hr; exact hr.elim
  | some p =>
    cases gmar ord false h n g .init none with
    | none => intro hr; exact hr.elim
    | some p' =>
      intro _
      obtain ⟨s, o⟩ := p
      obtain ⟨s', o'⟩ := p'
      cases o <;> cases o' <;> simp

theorem marshal_within_graph (hord : ∀ dep, (ord dep).Perm dep) {pick : List Nat → Nat} {h : List GV} {g : GV} (hr : GraphRegular h g) {n n' : Nat} {j j' : J}
    (hm : marshal ord pick true h n g = some j) (hm' : marshal ord pick false h n' g = some j') : j.Within j' := by
  have hm := marshal_mono (Nat.le_max_left n n') hm
  have hm' := marshal_mono (Nat.le_max_right n n') hm'
  generalize max n n' = k at hm hm'
  have hrel := gmar_rel hord h k g .init none
  unfold marshal at hm hm'
  cases e : gmar ord true h k g .init none with
  | none => rw [e] at hm; cases hm
  | some p =>
    obtain ⟨s, o⟩ := p
    cases o with
    | none =>
      obtain ⟨s'', e'⟩ := gmar_none h k g _ _ e
      rw [e] at hm; rw [e'] at hm'
      cases hm; cases hm'
      simp only [MJ.finish]
      exact .same _
    | some m =>
      cases e' : gmar ord false h k g .init none with
      | none => rw [e'] at hm'; cases hm'
      | some p' =>
        obtain ⟨s', o'⟩ := p'
        rw [e, e'] at hrel
        obtain ⟨rfl, hw⟩ := hrel
        obtain ⟨m', rfl, hw2⟩ := hw ⟨hr.2, hr.1, (by intro e; cases e)⟩ m rfl
        rw [e] at hm; rw [e'] at hm'
        cases hm; cases hm'
        exact hw2.finish _ _

end Jsonutils
