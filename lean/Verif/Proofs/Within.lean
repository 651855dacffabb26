import Verif.Spec.Within
import Verif.Proofs.MarshalStruct

namespace Jsonutils

variable {ord : SMap Bytes → List (Bytes × Bytes)}

/-- Lists of members: each key of the first is in the second, with a larger value. -/
def PSub (ps qs : List (Bytes × J)) : Prop := ∀ k v, (k, v) ∈ ps → ∃ v', (k, v') ∈ qs ∧ v.Within v'

theorem within_dict {id : Int} {m m' : SMap J} (h : ∀ k v, smGet m k = some v → ∃ v', smGet m' k = some v' ∧ v.Within v') :
    (J.dict id m).Within (.dict id m') := by
  refine .dict (fun k hk => ?_) (fun k v v' h1 h2 => ?_)
  · cases hv : smGet m k with
    | none => exact absurd hv hk
    | some v => obtain ⟨v', h1, _⟩ := h k v hv; rw [h1]; simp
  · obtain ⟨w, h3, h4⟩ := h k v h1
    rw [h2] at h3; cases h3; exact h4

theorem scalar_within : ∀ (t : TV), t.Scalar → ∀ (info : Option FInfo) (v : J), t.mar ord true info = some (some v) →
    t.mar ord false info = some (some v)
  | .leaf l, _, info, v, h => by
    simp only [TV.mar, Option.some.injEq] at h ⊢
    exact leaf_all h
  | .iface x, hs, info, v, h => by
    simp only [TV.mar, TV.Scalar] at h hs ⊢
    exact scalar_within x hs info v h
  | .ptr x, hs, info, v, h => by
    simp only [TV.mar, TV.Scalar] at h hs ⊢
    exact scalar_within x hs info v h
  | .seq _, hs, _, _, _ => by simp only [TV.Scalar] at hs
  | .map _, hs, _, _, _ => by simp only [TV.Scalar] at hs
  | .struct _, hs, _, _, _ => by simp only [TV.Scalar] at hs

theorem forceJ_id {info : Option FInfo} (h : optForce info = false) (j : J) : forceJ info j = j := by
  simp [forceJ, h]

theorem structJ_drop {oe : Bool} {info : Option FInfo} {ps : List (Bytes × J)} {dep : SMap Bytes} {j : J} (hf : optForce info = false)
    (h : structJ ord oe info ps dep = some (some j)) : structJ ord oe none ps dep = some (some j) := by
  unfold structJ at h ⊢
  cases hd : depPairs dep (dep.length + 1) ps (ord dep) with
  | none => rw [hd] at h; cases h
  | some q =>
    rw [hd] at h
    simp only at h ⊢
    split at h
    · cases h
    · rw [forceJ_id hf] at h
      rw [if_neg (by simp [optEmpty])]
      rw [forceJ_id (by rfl)]
      exact h

theorem marm_keys {oe : Bool} : ∀ (xs : List (Bytes × TV)) (ps : List (Bytes × J)), TV.marm ord oe xs = some ps →
    (ps.map (·.1)).Sublist (xs.map (·.1))
  | [], ps, h => by simp only [TV.marm] at h; cases h; simp
  | (k, x) :: xs, ps, h => by
    simp only [TV.marm] at h
    split at h
    · cases h
    · split at h
      · cases h
      · rename_i o hx _ ys hs
        clear hx
        have := marm_keys xs ys hs
        cases h
        cases o with
        | none => exact this.cons _
        | some y => exact this.cons_cons _

mutual
theorem mar_within (hord : ∀ dep, (ord dep).Perm dep) : ∀ (t : TV), t.Regular → ∀ (info : Option FInfo), (optForce info = true → t.Scalar) →
    ∀ (v : J) (o' : Option J), t.mar ord true info = some (some v) → t.mar ord false info = some o' → ∃ v', o' = some v' ∧ v.Within v'
  | .leaf l, _, info, _, v, o', h, h' => by
    simp only [TV.mar, Option.some.injEq] at h h'
    rw [leaf_all h] at h'
    exact ⟨v, h'.symm, .same _⟩
  | .iface x, hr, info, hf, v, o', h, h' => by
    simp only [TV.mar, TV.Regular] at h h' hr
    exact mar_within hord x hr info (fun e => by simpa only [TV.Scalar] using hf e) v o' h h'
  | .ptr x, hr, info, hf, v, o', h, h' => by
    simp only [TV.mar, TV.Regular] at h h' hr
    exact mar_within hord x hr info (fun e => by simpa only [TV.Scalar] using hf e) v o' h h'
  | .seq xs, hr, info, hf, v, o', h, h' => by
    have hff : optForce info = false := by
      cases e : optForce info with
      | false => rfl
      | true => have := hf e; simp only [TV.Scalar] at this
    simp only [TV.mar, TV.Regular] at h h' hr
    rw [if_neg (by simp)] at h'
    split at h
    · cases h
    · split at h
      · cases h
      · split at h'
        · cases h'
        · rename_i ys h1 _ ys' h2
          rw [forceJ_id hff] at h h'
          cases h; cases h'
          exact ⟨_, rfl, .arr (mars_within hord xs hr ys ys' h1 h2)⟩
  | .map xs, hr, info, hf, v, o', h, h' => by
    have hff : optForce info = false := by
      cases e : optForce info with
      | false => rfl
      | true => have := hf e; simp only [TV.Scalar] at this
    simp only [TV.mar, TV.Regular] at h h' hr
    rw [if_neg (by simp)] at h'
    split at h
    · cases h
    · split at h
      · cases h
      · split at h'
        · cases h'
        · rename_i ys h1 _ ys' h2
          rw [forceJ_id hff] at h h'
          cases h; cases h'
          refine ⟨_, rfl, within_dict fun k v hv => ?_⟩
          have n1 := (marm_keys xs ys h1).nodup hr.1
          have n2 := (marm_keys xs ys' h2).nodup hr.1
          rw [pairsDict_get ys n1] at hv
          obtain ⟨v', a, b⟩ := marm_within hord xs hr.2 ys ys' h1 h2 k v hv
          exact ⟨v', (pairsDict_get ys' n2 k v').2 a, b⟩
  | .struct fs, hr, info, hf, v, o', h, h' => by
    have hff : optForce info = false := by
      cases e : optForce info with
      | false => rfl
      | true => have := hf e; simp only [TV.Scalar] at this
    simp only [TV.mar, TV.Regular] at h h' hr
    split at h
    · cases h
    · split at h'
      · cases h'
      · rename_i ps dep h1 _ ps' dep' h2
        have hsub := marf_within hord fs hr.2 ps ps' dep dep' h1 h2
        have h3 := structJ_drop hff h
        obtain ⟨m, rfl, hm⟩ := struct_spec hord hr.1 h1 h3
        cases o' with
        | none =>
          unfold structJ at h'
          split at h'
          · cases h'
          · rw [if_neg (by simp)] at h'; cases h'
        | some j' =>
          obtain ⟨m', rfl, hm'⟩ := struct_spec hord hr.1 h2 (structJ_drop hff h')
          refine ⟨_, rfl, within_dict fun k v hv => ?_⟩
          rcases (hm k v).1 hv with hp | ⟨k', e, e1, e2, e3⟩
          · obtain ⟨v', a, b⟩ := hsub k v hp
            exact ⟨v', (hm' k v').2 (.inl a), b⟩
          · obtain ⟨v', a, b⟩ := hsub e v e3
            exact ⟨v', (hm' k v').2 (.inr ⟨k', e, e1, e2, a⟩), b⟩
theorem mars_within (hord : ∀ dep, (ord dep).Perm dep) : ∀ (xs : List TV), TV.Regulars xs → ∀ (ys ys' : List J),
    TV.mars ord true xs = some ys → TV.mars ord false xs = some ys' → J.Withins ys ys'
  | [], _, ys, ys', h, h' => by simp only [TV.mars] at h h'; cases h; cases h'; exact .nil
  | x :: xs, hr, ys, ys', h, h' => by
    simp only [TV.mars, TV.Regulars] at h h' hr
    split at h
    · cases h
    · split at h'
      · cases h'
      · split at h
        · cases h
        · split at h'
          · cases h'
          · rename_i o hx _ o' hx' _ zs hz _ zs' hz'
            have ih := mars_within hord xs hr.2 zs zs' hz hz'
            cases h; cases h'
            cases o with
            | none =>
              cases o' with
              | none => exact ih
              | some _ => exact .skip ih
            | some y =>
              obtain ⟨y', rfl, hy⟩ := mar_within hord x hr.1 none (by intro e; cases e) y o' hx hx'
              exact .keep hy ih
theorem marm_within (hord : ∀ dep, (ord dep).Perm dep) : ∀ (xs : List (Bytes × TV)), TV.Regularm xs → ∀ (ys ys' : List (Bytes × J)),
    TV.marm ord true xs = some ys → TV.marm ord false xs = some ys' → PSub ys ys'
  | [], _, ys, ys', h, h' => by simp only [TV.marm] at h h'; cases h; cases h'; intro k v hm; cases hm
  | (k, x) :: xs, hr, ys, ys', h, h' => by
    simp only [TV.marm, TV.Regularm] at h h' hr
    split at h
    · cases h
    · split at h'
      · cases h'
      · split at h
        · cases h
        · split at h'
          · cases h'
          · rename_i o hx _ o' hx' _ zs hz _ zs' hz'
            have ih := marm_within hord xs hr.2 zs zs' hz hz'
            cases h; cases h'
            cases o with
            | none =>
              intro k' v' hm
              obtain ⟨w, a, b⟩ := ih k' v' hm
              cases o' with
              | none => exact ⟨w, a, b⟩
              | some _ => exact ⟨w, List.mem_cons_of_mem _ a, b⟩
            | some y =>
              obtain ⟨y', rfl, hy⟩ := mar_within hord x hr.1 none (by intro e; cases e) y o' hx hx'
              intro k' v' hm
              rcases List.mem_cons.1 hm with hm | hm
              · cases hm; exact ⟨y', List.mem_cons_self, hy⟩
              · obtain ⟨w, a, b⟩ := ih k' v' hm
                exact ⟨w, List.mem_cons_of_mem _ a, b⟩
theorem marf_within (hord : ∀ dep, (ord dep).Perm dep) : ∀ (xs : List (FInfo × TV)), TV.Regularf xs → ∀ (ys ys' : List (Bytes × J)) (dep dep' : SMap Bytes),
    TV.marf ord true xs = some (ys, dep) → TV.marf ord false xs = some (ys', dep') → PSub ys ys'
  | [], _, ys, ys', _, _, h, h' => by simp only [TV.marf] at h h'; cases h; cases h'; intro k v hm; cases hm
  | (i, x) :: xs, hr, ys, ys', dep, dep', h, h' => by
    simp only [TV.marf, TV.Regularf] at h h' hr
    by_cases hi : i.ignore = true
    · rw [if_pos hi] at h h'
      exact marf_within hord xs hr.2 ys ys' dep dep' h h'
    · rw [if_neg hi] at h h'
      cases hk : i.deprecatedBy with
      | some kk =>
        rw [hk] at h h'
        simp only at h h'
        split at h
        · cases h
        · split at h'
          · cases h'
          · rename_i ps d1 h1 _ ps' d1' h2
            cases h; cases h'
            exact marf_within hord xs hr.2 _ _ _ _ h1 h2
      | none =>
        rw [hk] at h h'
        simp only at h h'
        have hx0 : (i.forceString = true → x.Scalar) ∧ x.Regular := by
          rcases hr.1 with e | e | e
          · exact absurd e hi
          · exact absurd hk e
          · exact e
        split at h
        · cases h
        · split at h'
          · cases h'
          · split at h
            · cases h
            · split at h'
              · cases h'
              · rename_i o hx _ o' hx' _ zs d1 hz _ zs' d1' hz'
                have ih := marf_within hord xs hr.2 _ _ _ _ hz hz'
                cases h; cases h'
                cases o with
                | none =>
                  intro k' v' hm
                  obtain ⟨w, a, b⟩ := ih k' v' hm
                  cases o' with
                  | none => exact ⟨w, a, b⟩
                  | some _ => exact ⟨w, List.mem_cons_of_mem _ a, b⟩
                | some y =>
                  obtain ⟨y', rfl, hy⟩ := mar_within hord x hx0.2 (some i) (fun e => hx0.1 e) y o' hx hx'
                  intro k' v' hm
                  rcases List.mem_cons.1 hm with hm | hm
                  · cases hm; exact ⟨y', List.mem_cons_self, hy⟩
                  · obtain ⟨w, a, b⟩ := ih k' v' hm
                    exact ⟨w, List.mem_cons_of_mem _ a, b⟩
end

/-- Outside a struct nothing but nil and the undefined tristate is left out, and `MarshalAll` writes null for them. -/
theorem mar_none_null {ord : SMap Bytes → List (Bytes × Bytes)} : ∀ (t : TV), t.mar ord true none = some none → t.mar ord false none = some (some .null)
  | .leaf l, h => by
    simp only [TV.mar, Option.some.injEq] at h ⊢
    cases l with
    | nil => rfl
    | tri x => cases x with
      | none => rfl
      | some b => simp [Leaf.marshal, marshalTristate] at h
    | bool b => simp [Leaf.marshal, marshalBoolean, optFalse, optForce] at h
    | int b => simp [Leaf.marshal, marshalInt64, optZero, optForce] at h
    | float32 b => simp [Leaf.marshal, marshalFloat32, optZero, optForce] at h
    | float64 b => simp [Leaf.marshal, marshalFloat64, optZero, optForce] at h
    | str b => simp [Leaf.marshal, marshalString, optEmpty] at h
    | time b => cases b <;> simp [Leaf.marshal, marshalTime, optEmpty] at h
    | jsonVal b => simp [Leaf.marshal, optEmpty] at h
    | jsonIface b => simp [Leaf.marshal] at h
    | std b => simp [Leaf.marshal] at h
    | other => simp [Leaf.marshal] at h
  | .iface x, h => by simp only [TV.mar] at h ⊢; exact mar_none_null x h
  | .ptr x, h => by simp only [TV.mar] at h ⊢; exact mar_none_null x h
  | .seq xs, h => by
    simp only [TV.mar] at h
    rw [if_neg (by simp [optEmpty])] at h
    split at h <;> cases h
  | .map xs, h => by
    simp only [TV.mar] at h
    rw [if_neg (by simp [optEmpty])] at h
    split at h <;> cases h
  | .struct xs, h => by
    simp only [TV.mar] at h
    split at h
    · cases h
    · unfold structJ at h
      split at h
      · cases h
      · rw [if_neg (by simp [optEmpty])] at h
        cases h

end Jsonutils
