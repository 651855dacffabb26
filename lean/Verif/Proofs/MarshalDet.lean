import Verif.Proofs.MarshalStruct

/-! # The iteration order of Go maps does not matter (acyclic values) -/

namespace Jsonutils

variable {ord ord' : SMap Bytes → List (Bytes × Bytes)} {oe : Bool}

theorem structJ_ord (hord : ∀ dep, (ord dep).Perm dep) (hord' : ∀ dep, (ord' dep).Perm dep) {info : Option FInfo} {ps : List (Bytes × J)} {dep : SMap Bytes}
    (hs : SMap.Sorted dep) {o o' : Option J} (h : structJ ord oe info ps dep = some o) (h' : structJ ord' oe info ps dep = some o') : o = o' := by
  unfold structJ at h h'
  cases h1 : depPairs dep (dep.length + 1) ps (ord dep) with
  | none => rw [h1] at h; cases h
  | some d1 =>
    cases h2 : depPairs dep (dep.length + 1) ps (ord' dep) with
    | none => rw [h2] at h'; cases h'
    | some d2 =>
      rw [h1] at h; rw [h2] at h'
      simp only at h h'
      have e1 := (Props.C41_result dep hs ps (ord dep) (hord dep) _ d1 h1).2 (ord' dep) _ d2 (hord' dep) h2
      have e2 : (ps ++ d2).isEmpty = (ps ++ d1).isEmpty := by
        cases ps with
        | nil => rw [depPairs_nil h1, depPairs_nil h2]
        | cons _ _ => rfl
      rw [e2] at h'
      have e3 : pairsDict (ps ++ d2) = pairsDict (ps ++ d1) := e1
      rw [e3] at h'
      rw [h] at h'; cases h'; rfl

mutual
theorem mar_ord (hord : ∀ dep, (ord dep).Perm dep) (hord' : ∀ dep, (ord' dep).Perm dep) : ∀ (t : TV) (info : Option FInfo) (o o' : Option J),
    t.mar ord oe info = some o → t.mar ord' oe info = some o' → o = o'
  | .leaf l, info, o, o', h, h' => by simp only [TV.mar] at h h'; rw [h] at h'; cases h'; rfl
  | .seq xs, info, o, o', h, h' => by
    simp only [TV.mar] at h h'
    split at h
    · rename_i hc; rw [if_pos hc] at h'; rw [h] at h'; cases h'; rfl
    · rename_i hc
      rw [if_neg hc] at h'
      split at h
      · cases h
      · rename_i h1
        split at h'
        · cases h'
        · rename_i h2
          rw [mars_ord hord hord' xs _ _ h1 h2, h'] at h; cases h; rfl
  | .map xs, info, o, o', h, h' => by
    simp only [TV.mar] at h h'
    split at h
    · rename_i hc; rw [if_pos hc] at h'; rw [h] at h'; cases h'; rfl
    · rename_i hc
      rw [if_neg hc] at h'
      split at h
      · cases h
      · rename_i h1
        split at h'
        · cases h'
        · rename_i h2
          rw [marm_ord hord hord' xs _ _ h1 h2, h'] at h; cases h; rfl
  | .struct xs, info, o, o', h, h' => by
    simp only [TV.mar] at h h'
    split at h
    · cases h
    · rename_i ps dep h1
      split at h'
      · cases h'
      · rename_i ps' dep' h2
        have e := marf_ord hord hord' xs _ _ h1 h2
        cases e
        rw [marf_dep xs _ _ h1] at h h'
        exact structJ_ord hord hord' (depMap_sorted xs) h h'
  | .iface x, info, o, o', h, h' => by
    simp only [TV.mar] at h h'; exact mar_ord hord hord' x info o o' h h'
  | .ptr x, info, o, o', h, h' => by
    simp only [TV.mar] at h h'; exact mar_ord hord hord' x info o o' h h'
theorem mars_ord (hord : ∀ dep, (ord dep).Perm dep) (hord' : ∀ dep, (ord' dep).Perm dep) : ∀ (ts : List TV) (o o' : List J),
    TV.mars ord oe ts = some o → TV.mars ord' oe ts = some o' → o = o'
  | [], o, o', h, h' => by simp only [TV.mars] at h h'; cases h; cases h'; rfl
  | x :: xs, o, o', h, h' => by
    simp only [TV.mars] at h h'
    split at h
    · cases h
    · rename_i a1 h1
      split at h
      · cases h
      · rename_i b1 g1
        split at h'
        · cases h'
        · rename_i a2 h2
          split at h'
          · cases h'
          · rename_i b2 g2
            cases mar_ord hord hord' x none _ _ h1 h2
            cases mars_ord hord hord' xs _ _ g1 g2
            rw [h] at h'; cases h'; rfl
theorem marm_ord (hord : ∀ dep, (ord dep).Perm dep) (hord' : ∀ dep, (ord' dep).Perm dep) : ∀ (ts : List (Bytes × TV)) (o o' : List (Bytes × J)),
    TV.marm ord oe ts = some o → TV.marm ord' oe ts = some o' → o = o'
  | [], o, o', h, h' => by simp only [TV.marm] at h h'; cases h; cases h'; rfl
  | (k, x) :: xs, o, o', h, h' => by
    simp only [TV.marm] at h h'
    split at h
    · cases h
    · rename_i a1 h1
      split at h
      · cases h
      · rename_i b1 g1
        split at h'
        · cases h'
        · rename_i a2 h2
          split at h'
          · cases h'
          · rename_i b2 g2
            cases mar_ord hord hord' x none _ _ h1 h2
            cases marm_ord hord hord' xs _ _ g1 g2
            rw [h] at h'; cases h'; rfl
theorem marf_ord (hord : ∀ dep, (ord dep).Perm dep) (hord' : ∀ dep, (ord' dep).Perm dep) : ∀ (ts : List (FInfo × TV)) (o o' : List (Bytes × J) × SMap Bytes),
    TV.marf ord oe ts = some o → TV.marf ord' oe ts = some o' → o = o'
  | [], o, o', h, h' => by simp only [TV.marf] at h h'; cases h; cases h'; rfl
  | (i, x) :: xs, o, o', h, h' => by
    simp only [TV.marf] at h h'
    split at h
    · rename_i hc; rw [if_pos hc] at h'; exact marf_ord hord hord' xs o o' h h'
    · rename_i hc
      rw [if_neg hc] at h'
      cases hk : i.deprecatedBy with
      | some k =>
        rw [hk] at h h'
        simp only at h h'
        split at h
        · cases h
        · rename_i g1
          split at h'
          · cases h'
          · rename_i g2
            cases marf_ord hord hord' xs _ _ g1 g2
            rw [h] at h'; cases h'; rfl
      | none =>
        rw [hk] at h h'
        simp only at h h'
        split at h
        · cases h
        · rename_i a1 h1
          split at h
          · cases h
          · rename_i g1
            split at h'
            · cases h'
            · rename_i a2 h2
              split at h'
              · cases h'
              · rename_i g2
                cases mar_ord hord hord' x _ _ _ h1 h2
                cases marf_ord hord hord' xs _ _ g1 g2
                rw [h] at h'; cases h'; rfl
end

end Jsonutils
