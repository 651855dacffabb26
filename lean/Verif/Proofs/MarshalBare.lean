import Verif.Proofs.MarshalWf

/-! # Acyclic values: no references in the result -/

namespace Jsonutils

variable {ord : SMap Bytes → List (Bytes × Bytes)} {oe : Bool}

mutual
def TV.NoIds : TV → Prop
  | .leaf l => l.NoIds
  | .seq xs => TV.NoIdss xs
  | .map kvs => TV.NoIdsm kvs
  | .struct fs => TV.NoIdsf fs
  | .iface x => x.NoIds
  | .ptr x => x.NoIds
def TV.NoIdss : List TV → Prop
  | [] => True
  | x :: xs => x.NoIds ∧ TV.NoIdss xs
def TV.NoIdsm : List (Bytes × TV) → Prop
  | [] => True
  | (_, x) :: xs => x.NoIds ∧ TV.NoIdsm xs
def TV.NoIdsf : List (FInfo × TV) → Prop
  | [] => True
  | (_, x) :: xs => x.NoIds ∧ TV.NoIdsf xs
end

theorem noIds_unf {h : List GV} (hh : ∀ x ∈ h, x.NoIds) {g : GV} {t : TV} (hu : Unf h g t) (hg : g.NoIds) : t.NoIds := by
  refine (Unf.induct (h := h) (P := fun g t => g.NoIds → t.NoIds) (Ps := fun g t => GV.NoIdss g → TV.NoIdss t)
    (Pm := fun g t => GV.NoIdsm g → TV.NoIdsm t) (Pf := fun g t => GV.NoIdsf g → TV.NoIdsf t)
    ?_ ?_ ?_ ?_ ?_ ?_ ?_ ?_ ?_ ?_ ?_ ?_ ?_ ?_).1 hu hg
  · intro l h; simpa only [GV.NoIds, TV.NoIds] using h
  · intro l h; simpa only [GV.NoIds, TV.NoIds, Leaf.NoIds] using h
  · intro _ _ _ ih h; simp only [GV.NoIds, TV.NoIds] at h ⊢; exact ih h
  · intro _ _ _ ih h; simp only [GV.NoIds, TV.NoIds] at h ⊢; exact ih h
  · intro _ _ _ ih h; simp only [GV.NoIds, TV.NoIds] at h ⊢; exact ih h
  · intro _ _ _ ih h; simp only [GV.NoIds, TV.NoIds] at h ⊢; exact ih h
  · intro _ g _ ha _ ih h; simp only [TV.NoIds] at h ⊢; exact ih (hh g (List.mem_of_getElem? ha))
  · intro _ g _ ha _ ih h; exact ih (hh g (List.mem_of_getElem? ha))
  · intro _; trivial
  · intro _ _ _ _ _ _ i1 i2 h; simp only [GV.NoIdss, TV.NoIdss] at h ⊢; exact ⟨i1 h.1, i2 h.2⟩
  · intro _; trivial
  · intro _ _ _ _ _ _ _ i1 i2 h; simp only [GV.NoIdsm, TV.NoIdsm] at h ⊢; exact ⟨i1 h.1, i2 h.2⟩
  · intro _; trivial
  · intro _ _ _ _ _ _ _ i1 i2 h; simp only [GV.NoIdsf, TV.NoIdsf] at h ⊢; exact ⟨i1 h.1, i2 h.2⟩

/-- No ids, no references. -/
def J.Bare (j : J) : Prop := j.nodeIds = [] ∧ j.ptrIds = []

theorem bares {xs : List J} (h : ∀ x ∈ xs, x.Bare) : (J.arr xs).Bare := by
  unfold J.Bare
  simp only [J.nodeIds, J.ptrIds]
  induction xs with
  | nil => simp [J.nodeIdss, J.ptrIdss]
  | cons x xs ih =>
    have := ih fun y hy => h y (by simp [hy])
    have hx := h x (by simp)
    simp [J.nodeIdss, J.ptrIdss, this, hx.1, hx.2]

theorem bared {xs : List (Bytes × J)} (h : ∀ p ∈ xs, p.2.Bare) : (J.dict 0 xs).Bare := by
  unfold J.Bare
  simp only [J.nodeIds, J.ptrIds]
  induction xs with
  | nil => simp [J.nodeIdsf, J.ptrIdsf]
  | cons x xs ih =>
    obtain ⟨k, x⟩ := x
    have := ih fun y hy => h y (by simp [hy])
    have hx := h (k, x) (by simp)
    simp only [Int.lt_irrefl, if_false, List.append_nil] at this ⊢
    simp [J.nodeIdsf, J.ptrIdsf, this, hx.1, hx.2]

theorem forceJ_bare {info : Option FInfo} {j : J} (h : j.Bare) : (forceJ info j).Bare := by
  unfold forceJ
  split
  · simp [J.Bare, J.nodeIds, J.ptrIds]
  · exact h

mutual
theorem mar_bare : ∀ (t : TV) (info : Option FInfo) (j : J), t.NoIds → t.mar ord oe info = some (some j) → j.Bare
  | .leaf l, info, j, hn, h => by
    simp only [TV.mar, Option.some.injEq] at h
    simp only [TV.NoIds] at hn
    exact leaf_single hn h
  | .seq xs, info, j, hn, h => by
    simp only [TV.mar] at h
    simp only [TV.NoIds] at hn
    split at h
    · cases h
    · split at h
      · cases h
      · rename_i hr
        cases h
        exact forceJ_bare (bares (mars_bare xs _ hn hr))
  | .map xs, info, j, hn, h => by
    simp only [TV.mar] at h
    simp only [TV.NoIds] at hn
    split at h
    · cases h
    · split at h
      · cases h
      · rename_i hr
        cases h
        exact forceJ_bare (bared fun p hp => marm_bare xs _ hn hr p (pairsDict_mem hp))
  | .struct fs, info, j, hn, h => by
    simp only [TV.mar] at h
    simp only [TV.NoIds] at hn
    split at h
    · cases h
    · rename_i pairs dep hr
      have hb := marf_bare fs _ _ hn hr
      unfold structJ at h
      split at h
      · cases h
      · rename_i dps hd
        split at h
        · cases h
        · cases h
          refine forceJ_bare (bared fun p hp => ?_)
          rcases List.mem_append.1 (pairsDict_mem hp) with hp | hp
          · exact hb p hp
          · obtain ⟨k, v⟩ := p
            obtain ⟨_, e, _, _, h3⟩ := (depPairs_mem hd k v).1 hp
            exact hb (e, v) (findValueByKey_mem' h3)
  | .iface x, info, j, hn, h => by
    simp only [TV.mar] at h
    simp only [TV.NoIds] at hn
    exact mar_bare x info j hn h
  | .ptr x, info, j, hn, h => by
    simp only [TV.mar] at h
    simp only [TV.NoIds] at hn
    exact mar_bare x info j hn h
theorem mars_bare : ∀ (ts : List TV) (ys : List J), TV.NoIdss ts → TV.mars ord oe ts = some ys → ∀ y ∈ ys, y.Bare
  | [], ys, _, h => by simp only [TV.mars] at h; cases h; simp
  | x :: ts, ys, hn, h => by
    simp only [TV.mars] at h
    simp only [TV.NoIdss] at hn
    split at h
    · cases h
    · rename_i o hx
      split at h
      · cases h
      · rename_i hr
        have ih := mars_bare ts _ hn.2 hr
        cases o with
        | none => cases h; exact ih
        | some y =>
          cases h
          intro z hz
          rcases List.mem_cons.1 hz with rfl | hz
          · exact mar_bare x none _ hn.1 hx
          · exact ih z hz
theorem marm_bare : ∀ (ts : List (Bytes × TV)) (ys : List (Bytes × J)), TV.NoIdsm ts → TV.marm ord oe ts = some ys → ∀ y ∈ ys, y.2.Bare
  | [], ys, _, h => by simp only [TV.marm] at h; cases h; simp
  | (k, x) :: ts, ys, hn, h => by
    simp only [TV.marm] at h
    simp only [TV.NoIdsm] at hn
    split at h
    · cases h
    · rename_i o hx
      split at h
      · cases h
      · rename_i hr
        have ih := marm_bare ts _ hn.2 hr
        cases o with
        | none => cases h; exact ih
        | some y =>
          cases h
          intro z hz
          rcases List.mem_cons.1 hz with rfl | hz
          · exact mar_bare x none _ hn.1 hx
          · exact ih z hz
theorem marf_bare : ∀ (ts : List (FInfo × TV)) (ys : List (Bytes × J)) (dep : SMap Bytes), TV.NoIdsf ts → TV.marf ord oe ts = some (ys, dep) → ∀ y ∈ ys, y.2.Bare
  | [], ys, dep, _, h => by simp only [TV.marf] at h; cases h; simp
  | (k, x) :: ts, ys, dep, hn, h => by
    simp only [TV.marf] at h
    simp only [TV.NoIdsf] at hn
    split at h
    · exact marf_bare ts ys dep hn.2 h
    · split at h
      · split at h
        · cases h
        · rename_i hr
          cases h
          exact marf_bare ts _ _ hn.2 hr
      · split at h
        · cases h
        · rename_i o hx
          split at h
          · cases h
          · rename_i hr
            have ih := marf_bare ts _ _ hn.2 hr
            cases o with
            | none => cases h; exact ih
            | some y =>
              cases h
              intro z hz
              rcases List.mem_cons.1 hz with rfl | hz
              · exact mar_bare x _ _ hn.1 hx
              · exact ih z hz
end

theorem marshal_bare {pick : List Nat → Nat} {h : List GV} {g : GV} (hac : Acyclic h g) (hg : g.NoIds) (hh : ∀ x ∈ h, x.NoIds) {n : Nat} {j : J}
    (hm : marshal ord pick oe h n g = some j) : j.Bare := by
  obtain ⟨t, hu⟩ := hac
  obtain ⟨o, h1, h2⟩ := marshal_tree hu hm
  cases o with
  | none => subst h2; simp [J.Bare, J.nodeIds, J.ptrIds]
  | some j' => subst h2; exact mar_bare t none _ (noIds_unf hh hu hg) h1

end Jsonutils
