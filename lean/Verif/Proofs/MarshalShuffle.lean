import Verif.Proofs.MarshalMap

/-! Trees of values whose maps are walked in different orders marshal to the same document, if keys are apart. -/

namespace Jsonutils

mutual
/-- The same value with the entries of its maps in another order, keys apart. -/
inductive GV.Shuf : GV → GV → Prop where
  | leaf (l) : Shuf (.leaf l) (.leaf l)
  | jsonPtr (j) : Shuf (.jsonPtr j) (.jsonPtr j)
  | seq {xs ys} : Shufs xs ys → Shuf (.seq xs) (.seq ys)
  | map {xs zs ys} : (xs.map (·.1)).Nodup → Shufm xs zs → zs.Perm ys → Shuf (.map xs) (.map ys)
  | struct {xs ys} : Shuff xs ys → Shuf (.struct xs) (.struct ys)
  | iface {x y} : Shuf x y → Shuf (.iface x) (.iface y)
  | ptr (a) : Shuf (.ptr a) (.ptr a)
  | shared (a) : Shuf (.shared a) (.shared a)
inductive GV.Shufs : List GV → List GV → Prop where
  | nil : Shufs [] []
  | cons {x xs y ys} : GV.Shuf x y → Shufs xs ys → Shufs (x :: xs) (y :: ys)
inductive GV.Shufm : List (Bytes × GV) → List (Bytes × GV) → Prop where
  | nil : Shufm [] []
  | cons {k x xs y ys} : GV.Shuf x y → Shufm xs ys → Shufm ((k, x) :: xs) ((k, y) :: ys)
inductive GV.Shuff : List (FInfo × GV) → List (FInfo × GV) → Prop where
  | nil : Shuff [] []
  | cons {i x xs y ys} : GV.Shuf x y → Shuff xs ys → Shuff ((i, x) :: xs) ((i, y) :: ys)
end

mutual
inductive TV.Shuf : TV → TV → Prop where
  | leaf (l) : Shuf (.leaf l) (.leaf l)
  | seq {xs ys} : Shufs xs ys → Shuf (.seq xs) (.seq ys)
  | map {xs zs ys} : (xs.map (·.1)).Nodup → Shufm xs zs → zs.Perm ys → Shuf (.map xs) (.map ys)
  | struct {xs ys} : Shuff xs ys → Shuf (.struct xs) (.struct ys)
  | iface {x y} : Shuf x y → Shuf (.iface x) (.iface y)
  | ptr {x y} : Shuf x y → Shuf (.ptr x) (.ptr y)
inductive TV.Shufs : List TV → List TV → Prop where
  | nil : Shufs [] []
  | cons {x xs y ys} : TV.Shuf x y → Shufs xs ys → Shufs (x :: xs) (y :: ys)
inductive TV.Shufm : List (Bytes × TV) → List (Bytes × TV) → Prop where
  | nil : Shufm [] []
  | cons {k x xs y ys} : TV.Shuf x y → Shufm xs ys → Shufm ((k, x) :: xs) ((k, y) :: ys)
inductive TV.Shuff : List (FInfo × TV) → List (FInfo × TV) → Prop where
  | nil : Shuff [] []
  | cons {i x xs y ys} : TV.Shuf x y → Shuff xs ys → Shuff ((i, x) :: xs) ((i, y) :: ys)
end

section
variable {sort sort' : List (MapKey × GV) → List (MapKey × GV)}

/-- Entry lists as written, walked in any two orders: permutations of each other up to the values. -/
theorem shufm_perm : ∀ {l m : List (Bytes × GV)}, l.Perm m → ∀ {zs}, GV.Shufm l zs → ∃ ws, GV.Shufm m ws ∧ zs.Perm ws := by
  intro l m hp
  induction hp with
  | nil => intro zs h; exact ⟨zs, h, List.Perm.refl _⟩
  | cons a _ ih =>
    intro zs h
    obtain ⟨k, x⟩ := a
    cases h with
    | cons h1 h2 =>
      obtain ⟨ws, a, b⟩ := ih h2
      exact ⟨_, .cons h1 a, b.cons _⟩
  | swap a b l =>
    intro zs h
    obtain ⟨k, x⟩ := a
    obtain ⟨k', x'⟩ := b
    cases h with
    | cons h1 h2 =>
      cases h2 with
      | cons h3 h4 => exact ⟨_, .cons h3 (.cons h1 h4), List.Perm.swap ..⟩
  | trans _ _ ih1 ih2 =>
    intro zs h
    obtain ⟨ws, a, b⟩ := ih1 h
    obtain ⟨vs, c, d⟩ := ih2 a
    exact ⟨vs, c, b.trans d⟩

theorem walkm_shown (l : List (MapKey × GU)) (f : GU → GV) : (l.map fun e => (e.1, f e.2)).map (fun e => (e.1.shown, e.2)) = l.map fun e => (e.1.shown, f e.2) := by
  rw [List.map_map]; rfl

mutual
theorem same_shuf (hs : GoSort sort) (hs' : GoSort sort') : ∀ {u u' : GU}, u.Same u' → u.KeysApart → GV.Shuf (u.walk sort) (u'.walk sort')
  | _, _, .leaf _, _ => by simp only [GU.walk]; exact .leaf _
  | _, _, .jsonPtr _, _ => by simp only [GU.walk]; exact .jsonPtr _
  | _, _, .seq h, ht => by simp only [GU.walk]; exact .seq (sames_shuf hs hs' h (by simpa only [GU.KeysApart] using ht))
  | .map xs, .map ys, .map (zs := zs) h hp, ht => by
    rw [GU.KeysApart] at ht
    simp only [GU.walk]
    have h1 := samem_shuf hs hs' h ht.2
    have p1 : ((GU.walkm sort xs).map fun e => (e.1.shown, e.2)).Perm ((sort (GU.walkm sort xs)).map fun e => (e.1.shown, e.2)) := ((hs _).1.map _).symm
    obtain ⟨ws, a, b⟩ := shufm_perm p1 h1
    refine .map ?_ a (b.symm.trans ?_)
    · have : ((sort (GU.walkm sort xs)).map fun e => (e.1.shown, e.2)).map (·.1) = (sort (GU.walkm sort xs)).map (·.1.shown) := by rw [List.map_map]; rfl
      rw [this, ((hs _).1.map _).nodup_iff, walkm_eq, List.map_map]
      exact ht.1
    · refine (List.Perm.map _ ?_).trans ((hs' _).1.map _).symm
      rw [walkm_eq, walkm_eq]; exact hp.map _
  | _, _, .struct h, ht => by simp only [GU.walk]; exact .struct (samef_shuf hs hs' h (by simpa only [GU.KeysApart] using ht))
  | _, _, .iface h, ht => by simp only [GU.walk]; exact .iface (same_shuf hs hs' h (by simpa only [GU.KeysApart] using ht))
  | _, _, .ptr _, _ => by simp only [GU.walk]; exact .ptr _
  | _, _, .shared _, _ => by simp only [GU.walk]; exact .shared _
theorem sames_shuf (hs : GoSort sort) (hs' : GoSort sort') : ∀ {u u' : List GU}, GU.Sames u u' → GU.KeysAparts u → GV.Shufs (GU.walks sort u) (GU.walks sort' u')
  | _, _, .nil, _ => .nil
  | _, _, .cons h1 h2, ht => by
    rw [GU.KeysAparts] at ht
    simp only [GU.walks]; exact .cons (same_shuf hs hs' h1 ht.1) (sames_shuf hs hs' h2 ht.2)
theorem samem_shuf (hs : GoSort sort) (hs' : GoSort sort') : ∀ {u u' : List (MapKey × GU)}, GU.Samem u u' → GU.KeysApartm u →
    GV.Shufm ((GU.walkm sort u).map fun e => (e.1.shown, e.2)) ((GU.walkm sort' u').map fun e => (e.1.shown, e.2))
  | _, _, .nil, _ => .nil
  | _, _, .cons h1 h2, ht => by
    rw [GU.KeysApartm] at ht
    simp only [GU.walkm, List.map_cons]; exact .cons (same_shuf hs hs' h1 ht.1) (samem_shuf hs hs' h2 ht.2)
theorem samef_shuf (hs : GoSort sort) (hs' : GoSort sort') : ∀ {u u' : List (FInfo × GU)}, GU.Samef u u' → GU.KeysApartf u → GV.Shuff (GU.walkf sort u) (GU.walkf sort' u')
  | _, _, .nil, _ => .nil
  | _, _, .cons h1 h2, ht => by
    rw [GU.KeysApartf] at ht
    simp only [GU.walkf]; exact .cons (same_shuf hs hs' h1 ht.1) (samef_shuf hs hs' h2 ht.2)
end
end

theorem shufs_get : ∀ {h h' : List GV}, GV.Shufs h h' → ∀ (a : Nat) g, h[a]? = some g → ∃ g', h'[a]? = some g' ∧ g.Shuf g'
  | [], _, _, a, g, hg => by simp at hg
  | x :: xs, _, .cons h1 h2, a, g, hg => by
    cases a with
    | zero => simp only [List.getElem?_cons_zero, Option.some.injEq] at hg ⊢; subst hg; exact ⟨_, rfl, h1⟩
    | succ a => simp only [List.getElem?_cons_succ] at hg ⊢; exact shufs_get h2 a g hg

theorem unfm_perm {h : List GV} : ∀ {l m : List (Bytes × GV)}, l.Perm m → ∀ {ts}, Unfm h l ts → ∃ ts', Unfm h m ts' ∧ ts.Perm ts' := by
  intro l m hp
  induction hp with
  | nil => intro zs h; exact ⟨zs, h, List.Perm.refl _⟩
  | cons a _ ih =>
    intro zs h
    obtain ⟨k, x⟩ := a
    cases h with
    | cons h1 h2 =>
      obtain ⟨ws, a, b⟩ := ih h2
      exact ⟨_, .cons h1 a, b.cons _⟩
  | swap a b l =>
    intro zs h
    obtain ⟨k, x⟩ := a
    obtain ⟨k', x'⟩ := b
    cases h with
    | cons h1 h2 =>
      cases h2 with
      | cons h3 h4 => exact ⟨_, .cons h3 (.cons h1 h4), List.Perm.swap ..⟩
  | trans _ _ ih1 ih2 =>
    intro zs h
    obtain ⟨ws, a, b⟩ := ih1 h
    obtain ⟨vs, c, d⟩ := ih2 a
    exact ⟨vs, c, b.trans d⟩

theorem unfm_keys {h : List GV} : ∀ {ts : List (Bytes × TV)} {xs : List (Bytes × GV)}, Unfm h xs ts → ts.map (·.1) = xs.map (·.1)
  | [], xs, hu => by cases hu; rfl
  | (k, t) :: ts, xs, hu => by
    cases hu with
    | cons h1 h2 => simp only [List.map_cons, unfm_keys h2]

theorem unf_shuf {h h' : List GV} (hh : GV.Shufs h h') {g : GV} {t : TV} (hu : Unf h g t) : ∀ g', g.Shuf g' → ∃ t', Unf h' g' t' ∧ t.Shuf t' := by
  refine (Unf.induct (h := h) (P := fun g t => ∀ g', g.Shuf g' → ∃ t', Unf h' g' t' ∧ t.Shuf t')
    (Ps := fun g t => ∀ g', GV.Shufs g g' → ∃ t', Unfs h' g' t' ∧ TV.Shufs t t')
    (Pm := fun g t => ∀ g', GV.Shufm g g' → ∃ t', Unfm h' g' t' ∧ TV.Shufm t t')
    (Pf := fun g t => ∀ g', GV.Shuff g g' → ∃ t', Unff h' g' t' ∧ TV.Shuff t t')
    ?_ ?_ ?_ ?_ ?_ ?_ ?_ ?_ ?_ ?_ ?_ ?_ ?_ ?_).1 hu
  · intro l g' hg; cases hg; exact ⟨_, .leaf _, .leaf _⟩
  · intro l g' hg; cases hg; exact ⟨_, .jsonPtr _, .leaf _⟩
  · intro _ _ _ ih g' hg
    cases hg with
    | seq hg => obtain ⟨t', a, b⟩ := ih _ hg; exact ⟨_, .seq a, .seq b⟩
  · intro _ _ hun ih g' hg
    cases hg with
    | map hn hg hp =>
      obtain ⟨t', a, b⟩ := ih _ hg
      obtain ⟨t'', c, d⟩ := unfm_perm hp a
      exact ⟨_, .map c, .map (by rw [unfm_keys hun]; exact hn) b d⟩
  · intro _ _ _ ih g' hg
    cases hg with
    | struct hg => obtain ⟨t', a, b⟩ := ih _ hg; exact ⟨_, .struct a, .struct b⟩
  · intro _ _ _ ih g' hg
    cases hg with
    | iface hg => obtain ⟨t', a, b⟩ := ih _ hg; exact ⟨_, .iface a, .iface b⟩
  · intro a g t ha _ ih g' hg
    cases hg
    obtain ⟨g'', c, d⟩ := shufs_get hh a g ha
    obtain ⟨t', e, f⟩ := ih _ d
    exact ⟨_, .ptr c e, .ptr f⟩
  · intro a g t ha _ ih g' hg
    cases hg
    obtain ⟨g'', c, d⟩ := shufs_get hh a g ha
    obtain ⟨t', e, f⟩ := ih _ d
    exact ⟨_, .shared c e, f⟩
  · intro g' hg; cases hg; exact ⟨_, .nil, .nil⟩
  · intro _ _ _ _ _ _ ih1 ih2 g' hg
    cases hg with
    | cons h1 h2 =>
      obtain ⟨_, a, b⟩ := ih1 _ h1
      obtain ⟨_, c, d⟩ := ih2 _ h2
      exact ⟨_, .cons a c, .cons b d⟩
  · intro g' hg; cases hg; exact ⟨_, .nil, .nil⟩
  · intro _ _ _ _ _ _ _ ih1 ih2 g' hg
    cases hg with
    | cons h1 h2 =>
      obtain ⟨_, a, b⟩ := ih1 _ h1
      obtain ⟨_, c, d⟩ := ih2 _ h2
      exact ⟨_, .cons a c, .cons b d⟩
  · intro g' hg; cases hg; exact ⟨_, .nil, .nil⟩
  · intro _ _ _ _ _ _ _ ih1 ih2 g' hg
    cases hg with
    | cons h1 h2 =>
      obtain ⟨_, a, b⟩ := ih1 _ h1
      obtain ⟨_, c, d⟩ := ih2 _ h2
      exact ⟨_, .cons a c, .cons b d⟩

section
variable {ord : SMap Bytes → List (Bytes × Bytes)} {oe : Bool}

theorem marm_keys_tv : ∀ (ts : List (Bytes × TV)) (ys : List (Bytes × J)), TV.marm ord oe ts = some ys → (ys.map (·.1)).Sublist (ts.map (·.1))
  | [], ys, h => by simp only [TV.marm] at h; cases h; simp
  | (k, x) :: ts, ys, h => by
    simp only [TV.marm] at h
    split at h
    · cases h
    · rename_i o hx
      split at h
      · cases h
      · rename_i ys' hr
        have ih := marm_keys_tv ts ys' hr
        cases o with
        | none => cases h; exact ih.cons _
        | some y => cases h; exact ih.cons_cons _

theorem marm_perm {l m : List (Bytes × TV)} (hp : l.Perm m) : ∀ ys, TV.marm ord oe l = some ys → ∃ zs, TV.marm ord oe m = some zs ∧ ys.Perm zs := by
  induction hp with
  | nil => intro ys h; exact ⟨ys, h, List.Perm.refl _⟩
  | cons a _ ih =>
    intro ys h
    obtain ⟨k, x⟩ := a
    simp only [TV.marm] at h ⊢
    cases hx : x.mar ord oe none with
    | none => rw [hx] at h; cases h
    | some o =>
      rw [hx] at h
      simp only at h ⊢
      split at h
      · cases h
      · rename_i ys' hr
        obtain ⟨zs, a, b⟩ := ih _ hr
        rw [a]
        cases h
        refine ⟨_, rfl, ?_⟩
        cases o with
        | none => exact b
        | some y => exact b.cons _
  | swap a b l =>
    intro ys h
    obtain ⟨k, x⟩ := a
    obtain ⟨k', x'⟩ := b
    simp only [TV.marm] at h ⊢
    cases hx : x.mar ord oe none with
    | none => rw [hx] at h; cases hx' : x'.mar ord oe none <;> rw [hx'] at h <;> cases h
    | some o =>
      cases hx' : x'.mar ord oe none with
      | none => rw [hx'] at h; cases h
      | some o' =>
        rw [hx, hx'] at h
        simp only at h ⊢
        cases hl : TV.marm ord oe l with
        | none => rw [hl] at h; cases h
        | some ys' =>
          rw [hl] at h
          simp only at h ⊢
          cases h
          refine ⟨_, rfl, ?_⟩
          cases o <;> cases o' <;> first | exact List.Perm.refl _ | exact List.Perm.swap ..
  | trans _ _ ih1 ih2 =>
    intro ys h
    obtain ⟨zs, a, b⟩ := ih1 ys h
    obtain ⟨ws, c, d⟩ := ih2 zs a
    exact ⟨ws, c, b.trans d⟩

theorem shufm_keys : ∀ {xs ys : List (Bytes × TV)}, TV.Shufm xs ys → xs.map (·.1) = ys.map (·.1)
  | [], _, .nil => rfl
  | _ :: _, _, .cons _ h2 => by simp only [List.map_cons, shufm_keys h2]

mutual
theorem mar_shuf : ∀ {t t' : TV}, t.Shuf t' → ∀ info, t.mar ord oe info = t'.mar ord oe info
  | _, _, .leaf _, _ => rfl
  | .seq xs, .seq ys, .seq h, info => by
    simp only [TV.mar]; rw [mars_shuf h]
    have : xs.isEmpty = ys.isEmpty := by cases h <;> rfl
    rw [this]
  | .map xs, .map ys, .map (zs := zs) hn h hp, info => by
    simp only [TV.mar]
    have e1 : TV.marm ord oe xs = TV.marm ord oe zs := marm_shuf h
    have e2 : xs.isEmpty = ys.isEmpty := by
      have : xs.length = ys.length := by
        rw [← List.length_map (as := xs) (·.1), shufm_keys h, List.length_map, hp.length_eq]
      cases xs <;> cases ys <;> simp_all
    rw [e1, e2]
    split
    · rfl
    · cases hz : TV.marm ord oe zs with
      | none =>
        cases hy : TV.marm ord oe ys with
        | none => rfl
        | some w =>
          obtain ⟨_, a, _⟩ := marm_perm hp.symm w hy
          rw [hz] at a; cases a
      | some w =>
        obtain ⟨w', a, b⟩ := marm_perm hp w hz
        rw [a]
        have hnw : (w.map (·.1)).Nodup := by
          refine (marm_keys_tv zs w hz).nodup ?_
          rw [← shufm_keys h]; exact hn
        simp only
        have : pairsDict w = pairsDict w' := foldl_smAdd_perm b hnw sorted_nil
        rw [this]
  | .struct xs, .struct ys, .struct h, info => by
    simp only [TV.mar]; rw [marf_shuf h]
  | _, _, .iface h, info => by simp only [TV.mar]; exact mar_shuf h info
  | _, _, .ptr h, info => by simp only [TV.mar]; exact mar_shuf h info
theorem mars_shuf : ∀ {t t' : List TV}, TV.Shufs t t' → TV.mars ord oe t = TV.mars ord oe t'
  | _, _, .nil => rfl
  | _, _, .cons h1 h2 => by simp only [TV.mars]; rw [mar_shuf h1, mars_shuf h2]
theorem marm_shuf : ∀ {t t' : List (Bytes × TV)}, TV.Shufm t t' → TV.marm ord oe t = TV.marm ord oe t'
  | _, _, .nil => rfl
  | _, _, .cons h1 h2 => by simp only [TV.marm]; rw [mar_shuf h1, marm_shuf h2]
theorem marf_shuf : ∀ {t t' : List (FInfo × TV)}, TV.Shuff t t' → TV.marf ord oe t = TV.marf ord oe t'
  | _, _, .nil => rfl
  | _, _, .cons (i := i) h1 h2 => by simp only [TV.marf]; rw [marf_shuf h2, mar_shuf h1]
end
end

end Jsonutils
