import Verif.Proofs.SharedMarshal

/-!
# Which objects `Marshal` puts into its result
-/

namespace Jsonutils

variable {ord : SMap Bytes → List (Bytes × Bytes)} {oe : Bool} {D : DEnv} {f : Nat}

/-! ### Pairs of a struct, for any kind of values -/

theorem struct_pairs {α β : Type} (hord : ∀ dep, (ord dep).Perm dep) {fs : List (FInfo × β)} (hd : DistinctNames fs) {ps : List (Bytes × α)}
    (hps : (ps.map (·.1)).Nodup) (hmem : ∀ k v, (k, v) ∈ ps → ∃ i x, (i, x) ∈ fs ∧ i.Proper ∧ i.name = k) {n : Nat} {dps : List (Bytes × α)}
    (hdp : depPairs (depMap fs) n ps (ord (depMap fs)) = some dps) (k : Bytes) (v : α) :
    smGet (pairsDict (ps ++ dps)) k = some v ↔ (k, v) ∈ ps ∨ ∃ k' e, smGet (depMap fs) k = some k' ∧ DepEnd (depMap fs) k' e ∧ (e, v) ∈ ps := by
  have hchar := (Props.C41_result (depMap fs) (depMap_sorted fs) ps (ord (depMap fs)) (hord _) _ dps hdp).1
  have hdn : (dps.map (·.1)).Nodup := by
    refine (depPairs_keys hdp).nodup ?_
    rw [((hord _).map _).nodup_iff]
    exact sorted_keys_nodupM (depMap_sorted fs)
  have hnod : ((ps ++ dps).map (·.1)).Nodup := by
    rw [List.map_append, List.nodup_append]
    refine ⟨hps, hdn, ?_⟩
    intro a ha b hb hab
    subst hab
    obtain ⟨⟨k1, v1⟩, h1, rfl⟩ := List.mem_map.1 ha
    obtain ⟨⟨k2, v2⟩, h2, h3⟩ := List.mem_map.1 hb
    simp only at h3
    subst h3
    obtain ⟨i, x, m1, p1, n1⟩ := hmem k2 v1 h1
    obtain ⟨k', e, g1, _⟩ := (hchar k2 v2).1 h2
    obtain ⟨i', x', m2, p2, n2, d2⟩ := depMap_mem fs k2 k' g1
    have := distinct_name hd m1 m2 p1.1 p2 (by rw [n1, n2])
    cases this
    rw [p1.2] at d2; cases d2
  rw [pairsDict_get _ hnod, List.mem_append, hchar]
  simp only [findValueByKey_mem hps]

theorem depMap_get {α : Type} : ∀ {fs : List (FInfo × α)}, DistinctNames fs → ∀ {i : FInfo} {x : α} {k : Bytes}, (i, x) ∈ fs → i.ignore = false → i.deprecatedBy = some k →
    smGet (depMap fs) i.name = some k := by
  intro fs hd i x k hm hi hk
  cases hg : smGet (depMap fs) i.name with
  | some k' =>
    obtain ⟨i', x', m2, p2, n2, d2⟩ := depMap_mem fs _ k' hg
    have := distinct_name hd hm m2 hi p2 n2.symm
    cases this
    rw [hk] at d2; exact d2.symm
  | none =>
    exfalso
    clear hd
    induction fs with
    | nil => cases hm
    | cons e fs ih =>
      obtain ⟨i', x'⟩ := e
      have hrest : smGet (depMap fs) i.name = none := by
        simp only [depMap] at hg
        split at hg
        · split at hg
          · exact hg
          · rename_i k2 hno
            rw [smGet_smAdd _ (depMap_sorted fs)] at hg
            split at hg
            · cases hg
            · exact hg
        · exact hg
      rcases List.mem_cons.1 hm with h | h
      · cases h
        simp only [depMap, hi, hk, hrest] at hg
        rw [smGet_smAdd _ (depMap_sorted fs)] at hg
        simp at hg
      · exact ih h hrest

/-! ### What becomes of the elements, entries and fields -/

theorem marD_kept : ∀ (x : DV) {u : UV} {t : DTy} {h h' : Heap} {r : Ref}, x.Is h u → DV.marD ord oe D f x t h none = .ok (r, h') → r.isSome = !(oe && x.nilLike)
  | .nil, u, t, h, h', r, hx, hr => by simp only [DV.marD] at hr; cases hr; cases oe <;> rfl
  | .sc x, u, t, h, h', r, hx, hr => by
    simp only [DV.Is] at hx
    obtain ⟨rfl, hp⟩ := hx
    simp only [DV.marD] at hr
    split at hr
    · rename_i hn
      exfalso
      unfold scLeaf at hn
      split at hn
      case h_6 => cases u <;> first | exact hp.elim | (rename_i a1 a2 a3 a4 a5; first | exact a1 _ rfl | exact a2 _ rfl | exact a3 _ rfl | exact a4 _ rfl)
      all_goals
        simp [Leaf.marshal, marshalInt64, newInt, marshalFloat32, newFloat32, marshalFloat64, newFloat64, marshalBoolean, marshalString, optEmpty, optForce, optFalse, optZero] at hn
    · cases hr; simp [DV.nilLike]
  | .ref a, u, t, h, h', r, hx, hr => by simp only [DV.marD] at hr; cases hr; simp [DV.nilLike]
  | .seq xs sp, u, t, h, h', r, hx, hr => by
    simp only [DV.marD] at hr
    rw [if_neg (by simp [optEmpty])] at hr
    split at hr
    · simp only [boxD, optForce, Bool.false_eq_true, if_false] at hr; cases hr; simp [DV.nilLike]
    · cases hr
    · cases hr
  | .map xs, u, t, h, h', r, hx, hr => by
    simp only [DV.marD] at hr
    rw [if_neg (by simp [optEmpty])] at hr
    split at hr
    · simp only [boxD, optForce, Bool.false_eq_true, if_false] at hr; cases hr; simp [DV.nilLike]
    · cases hr
    · cases hr
  | .struct xs, u, t, h, h', r, hx, hr => by
    simp only [DV.marD] at hr
    split at hr
    · unfold structD at hr
      split at hr
      · cases hr
      · rw [if_neg (by simp [optEmpty])] at hr
        simp only [boxD, optForce, Bool.false_eq_true, if_false] at hr; cases hr; simp [DV.nilLike]
    · cases hr
    · cases hr
  | .ptr x, u, t, h, h', r, hx, hr => by
    simp only [DV.Is] at hx
    obtain ⟨w, rfl, h1⟩ := hx
    simp only [DV.marD] at hr
    simp only [DV.nilLike]
    exact marD_kept x h1 hr

theorem marsD_get : ∀ (xs : List DV) {us : List UV} {t : DTy} {h h' : Heap} {rs : List Ref}, DV.Iss h xs us → DV.marsD ord oe D f xs t h = .ok (rs, h') → ∀ (i : Nat) x, xs[i]? = some x →
    ∃ h0 h1 r, h <+: h0 ∧ DV.marD ord oe D f x t h0 none = .ok (r, h1) ∧ h1 <+: h' ∧ (r.isSome → rs[((xs.take i).filter fun y => !(oe && y.nilLike)).length]? = some r)
  | [], us, t, h, h', rs, hx, hr => by intro i x hi; simp at hi
  | y :: xs, us, t, h, h', rs, hx, hr => by
    obtain ⟨u, ur, rfl, hu1, hu2⟩ := hx
    intro i x hi
    simp only [DV.marsD] at hr
    split at hr
    · rename_i r1 h1 hy
      split at hr
      · rename_i rs2 h2 hys
        have e1 := marD_prefix y hy
        have e2 := marsD_prefix xs hys
        have hk := marD_kept y hu1 hy
        cases hr
        cases i with
        | zero =>
          simp at hi
          subst hi
          refine ⟨h, h1, r1, List.prefix_refl _, hy, e2, fun hs => ?_⟩
          simp [hs]
        | succ i =>
          simp at hi
          obtain ⟨g0, g1, r, k1, k2, k3, k4⟩ := marsD_get xs (Iss_mono e1 xs ur hu2) hys i x hi
          refine ⟨g0, g1, r, e1.trans k1, k2, k3, fun hs => ?_⟩
          have := k4 hs
          rw [List.take_succ_cons, List.filter_cons]
          rw [hk]
          cases hb : !(oe && y.nilLike) with
          | true => simpa [hb] using this
          | false => simpa [hb] using this
      · cases hr
      · cases hr
    · cases hr
    · cases hr

theorem marmD_get : ∀ (xs : List (Bytes × DV)) {us : List (Bytes × UV)} {t : DTy} {h h' : Heap} {rs : List (Bytes × Ref)}, DV.Ism h xs us → DV.marmD ord oe D f xs t h = .ok (rs, h') → ∀ k x, (k, x) ∈ xs →
    ∃ h0 h1 r, h <+: h0 ∧ DV.marD ord oe D f x t h0 none = .ok (r, h1) ∧ h1 <+: h' ∧ (r.isSome → (k, r) ∈ rs)
  | [], us, t, h, h', rs, hx, hr => by intro i x hi; simp at hi
  | (k', y) :: xs, us, t, h, h', rs, hx, hr => by
    obtain ⟨u, ur, rfl, hu1, hu2⟩ := hx
    intro k x hi
    simp only [DV.marmD] at hr
    split at hr
    · rename_i r1 h1 hy
      split at hr
      · rename_i rs2 h2 hys
        have e1 := marD_prefix y hy
        have e2 := marmD_prefix xs hys
        cases hr
        rcases List.mem_cons.1 hi with hi | hi
        · cases hi
          exact ⟨h, h1, r1, List.prefix_refl _, hy, e2, fun hs => by simp [hs]⟩
        · obtain ⟨g0, g1, r, k1, k2, k3, k4⟩ := marmD_get xs (Ism_mono e1 xs ur hu2) hys k x hi
          refine ⟨g0, g1, r, e1.trans k1, k2, k3, fun hs => ?_⟩
          split
          · exact List.mem_cons_of_mem _ (k4 hs)
          · exact k4 hs
      · cases hr
      · cases hr
    · cases hr
    · cases hr

theorem marmD_keys : ∀ (xs : List (Bytes × DV)) {t : DTy} {h h' : Heap} {rs : List (Bytes × Ref)}, DV.marmD ord oe D f xs t h = .ok (rs, h') →
    (rs.map (·.1)).Sublist (xs.map (·.1))
  | [], t, h, h', rs, hr => by simp only [DV.marmD] at hr; cases hr; simp
  | (k', y) :: xs, t, h, h', rs, hr => by
    simp only [DV.marmD] at hr
    split at hr
    · split at hr
      · rename_i rs2 h2 hys
        cases hr
        have := marmD_keys xs hys
        split
        · exact this.cons_cons _
        · exact this.cons _
      · cases hr
      · cases hr
    · cases hr
    · cases hr

theorem marfD_get : ∀ (xs : List DV) {fs : List (FInfo × DTy)} {h h' : Heap} {rs : List (Bytes × Ref)} {dep : SMap Bytes}, DV.marfD ord oe D f xs fs h = .ok ((rs, dep), h') →
    ∀ (i : Nat) info t x, fs[i]? = some (info, t) → xs[i]? = some x → info.Proper →
    ∃ h0 h1 r, h <+: h0 ∧ DV.marD ord oe D f x t h0 (some info) = .ok (r, h1) ∧ h1 <+: h' ∧ (r.isSome → (info.name, r) ∈ rs)
  | [], fs, h, h', rs, dep, hr => by intro i info t x _ hi; simp at hi
  | y :: xs, [], h, h', rs, dep, hr => by intro i info t x hi; simp at hi
  | y :: xs, (i', t') :: fs, h, h', rs, dep, hr => by
    intro i info t x hf hi hp
    simp only [DV.marfD] at hr
    split at hr
    · rename_i hig
      cases i with
      | zero => simp at hf; cases hf.1; rw [hp.1] at hig; cases hig
      | succ i => simp at hf hi; exact marfD_get xs hr i info t x hf hi hp
    · split at hr
      · rename_i hdep
        split at hr
        · rename_i hys
          cases hr
          cases i with
          | zero => simp at hf; cases hf.1; rw [hp.2] at hdep; cases hdep
          | succ i => simp at hf hi; exact marfD_get xs hys i info t x hf hi hp
        · cases hr
        · cases hr
      · split at hr
        · rename_i r1 h1 hy
          split at hr
          · rename_i rs2 dep2 h2 hys
            have e1 := marD_prefix y hy
            have e2 := marfD_prefix xs hys
            cases hr
            cases i with
            | zero =>
              simp at hf hi
              obtain ⟨rfl, rfl⟩ := hf
              subst hi
              exact ⟨h, h1, r1, List.prefix_refl _, hy, e2, fun hs => by simp [hs]⟩
            | succ i =>
              simp at hf hi
              obtain ⟨g0, g1, r, k1, k2, k3, k4⟩ := marfD_get xs hys i info t x hf hi hp
              refine ⟨g0, g1, r, e1.trans k1, k2, k3, fun hs => ?_⟩
              split
              · exact List.mem_cons_of_mem _ (k4 hs)
              · exact k4 hs
          · cases hr
          · cases hr
        · cases hr
        · cases hr

theorem marfD_keys : ∀ (xs : List DV) {fs : List (FInfo × DTy)} {h h' : Heap} {rs : List (Bytes × Ref)} {dep : SMap Bytes}, xs.length = fs.length → DV.marfD ord oe D f xs fs h = .ok ((rs, dep), h') →
    (rs.map (·.1)).Sublist ((fs.filter fun f => !f.1.ignore).map (·.1.name)) ∧ dep = depMap fs
  | [], [], h, h', rs, dep, hl, hr => by simp only [DV.marfD] at hr; cases hr; exact ⟨by simp, rfl⟩
  | y :: xs, [], h, h', rs, dep, hl, hr => by simp at hl
  | [], _ :: _, h, h', rs, dep, hl, hr => by simp at hl
  | y :: xs, (i', t') :: fs, h, h', rs, dep, hl, hr => by
    simp only [List.length_cons, Nat.add_right_cancel_iff] at hl
    simp only [DV.marfD] at hr
    rw [List.filter_cons]
    simp only [depMap]
    split at hr
    · rename_i hig
      rw [if_neg (by simp [hig]), hig]
      exact marfD_keys xs hl hr
    · rename_i hig
      rw [if_pos (by simpa using hig), List.map_cons]
      simp only [Bool.not_eq_true] at hig
      rw [hig]
      split at hr
      · rename_i k hdep
        split at hr
        · rename_i hys
          cases hr
          obtain ⟨h1, h2⟩ := marfD_keys xs hl hys
          exact ⟨h1.cons _, by rw [hdep, h2]; rfl⟩
        · cases hr
        · cases hr
      · rename_i hdep
        split at hr
        · rename_i r1 h1 hy
          split at hr
          · rename_i rs2 dep2 h2 hys
            cases hr
            obtain ⟨h1, h2⟩ := marfD_keys xs hl hys
            refine ⟨?_, by rw [hdep, h2]⟩
            split
            · exact h1.cons_cons _
            · exact h1.cons _
          · cases hr
          · cases hr
        · cases hr
        · cases hr

/-- Where the pairs of a struct come from. -/
theorem marfD_src : ∀ (xs : List DV) {fs : List (FInfo × DTy)} {h h' : Heap} {rs : List (Bytes × Ref)} {dep : SMap Bytes}, DV.marfD ord oe D f xs fs h = .ok ((rs, dep), h') →
    ∀ k r, (k, r) ∈ rs → ∃ (i : Nat) (info : FInfo), (∃ t, fs[i]? = some (info, t)) ∧ info.Proper ∧ info.name = k
  | [], fs, h, h', rs, dep, hr => by intro k r hk; simp only [DV.marfD] at hr; cases hr; cases hk
  | y :: xs, [], h, h', rs, dep, hr => by intro k r hk; simp only [DV.marfD] at hr; cases hr; cases hk
  | y :: xs, (i', t') :: fs, h, h', rs, dep, hr => by
    intro k r hk
    have up : (∃ (i : Nat) (info : FInfo), (∃ t, fs[i]? = some (info, t)) ∧ info.Proper ∧ info.name = k) →
        ∃ (i : Nat) (info : FInfo), (∃ t, ((i', t') :: fs)[i]? = some (info, t)) ∧ info.Proper ∧ info.name = k :=
      fun ⟨i, info, ⟨t, h1⟩, h2⟩ => ⟨i + 1, info, ⟨t, by simpa using h1⟩, h2⟩
    simp only [DV.marfD] at hr
    split at hr
    · exact up (marfD_src xs hr k r hk)
    · rename_i hig
      split at hr
      · split at hr
        · rename_i hys; cases hr; exact up (marfD_src xs hys k r hk)
        · cases hr
        · cases hr
      · rename_i hdep
        split at hr
        · split at hr
          · rename_i hys
            cases hr
            split at hk
            · rcases List.mem_cons.1 hk with hk | hk
              · cases hk; exact ⟨0, i', ⟨t', rfl⟩, ⟨by simpa using hig, hdep⟩, rfl⟩
              · exact up (marfD_src xs hys k r hk)
            · exact up (marfD_src xs hys k r hk)
          · cases hr
          · cases hr
        · cases hr
        · cases hr

/-! ### The members of variables -/

theorem Iss_at {h : Heap} {defs : Defs} {t : Ty} : ∀ {xs : List DV} {us : List UV}, DV.Iss h xs us → UV.HasTys defs us t → ∀ (i : Nat) x, xs[i]? = some x →
    ∃ u, x.Is h u ∧ u.HasTy defs t
  | [], us, _, _, i, x, hi => by simp at hi
  | y :: xs, us, hx, ht, i, x, hi => by
    obtain ⟨u, r, rfl, h1, h2⟩ := hx
    obtain ⟨t1, t2⟩ := ht
    cases i with
    | zero => simp at hi; subst hi; exact ⟨u, h1, t1⟩
    | succ i => simp at hi; exact Iss_at h2 t2 i x hi

theorem Ism_at {h : Heap} {defs : Defs} {t : Ty} : ∀ {xs : List (Bytes × DV)} {us : List (Bytes × UV)}, DV.Ism h xs us → UV.HasTym defs us t → ∀ k x, (k, x) ∈ xs →
    ∃ u, x.Is h u ∧ u.HasTy defs t
  | [], us, _, _, k, x, hi => by simp at hi
  | (k', y) :: xs, us, hx, ht, k, x, hi => by
    obtain ⟨u, r, rfl, h1, h2⟩ := hx
    obtain ⟨t1, t2⟩ := ht
    rcases List.mem_cons.1 hi with hi | hi
    · cases hi; exact ⟨u, h1, t1⟩
    · exact Ism_at h2 t2 k x hi

theorem Issf_at {h : Heap} {defs : Defs} : ∀ {xs : List DV} {us : List UV} {fs : List (FInfo × DTy)}, DV.Iss h xs us → UV.HasTyf defs us (fs.map fun e => (e.1, e.2.ty)) →
    xs.length = fs.length ∧ ∀ (i : Nat) info t x, fs[i]? = some (info, t) → xs[i]? = some x → ∃ u, x.Is h u ∧ u.HasTy defs t.ty
  | [], us, fs, hx, ht => by
    simp only [DV.Iss] at hx
    subst hx
    simp only [UV.HasTyf, List.map_eq_nil_iff] at ht
    subst ht
    exact ⟨rfl, by simp⟩
  | y :: xs, us, fs, hx, ht => by
    obtain ⟨u, r, rfl, h1, h2⟩ := hx
    cases fs with
    | nil => simp [UV.HasTyf] at ht
    | cons e fs =>
      simp only [UV.HasTyf, List.map_cons, List.cons.injEq, Prod.mk.injEq] at ht
      obtain ⟨_, _, _, ⟨⟨rfl, rfl⟩, rfl⟩, ht1, ht2⟩ := ht
      obtain ⟨g1, g2⟩ := Issf_at h2 ht2
      refine ⟨by simp [g1], fun i info t x hf hi => ?_⟩
      cases i with
      | zero => simp at hf hi; subst hf hi; exact ⟨u, h1, ht1⟩
      | succ i => simp at hf hi; exact g2 i info t x hf hi

theorem struct_is {h : Heap} {n : Nat} {fs : List DV} {tys : List (FInfo × DTy)} {u : UV} (hd : D.defs[n]? = some tys) (hx : (DV.struct fs).Is h u)
    (ht : u.HasTy D.env.defs (DTy.struct n).ty) : ∃ us, DV.Iss h fs us ∧ UV.HasTyf D.env.defs us (tys.map fun e => (e.1, e.2.ty)) := by
  simp only [DV.Is] at hx
  obtain ⟨us, rfl, h1⟩ := hx
  simp only [UV.HasTy] at ht
  obtain ⟨n', fs', ht, hd', hfs⟩ := ht
  have e1 : fs' = (D.fields (.struct n)).map fun e => (e.1, e.2.ty) := by
    rw [← fields_env, ht]; simp only [Ty.fields, List.getD_eq_getElem?_getD, hd', Option.getD_some]
  simp only [DEnv.fields, List.getD_eq_getElem?_getD, hd, Option.getD_some] at e1
  subst e1
  exact ⟨us, h1, hfs⟩

theorem boxD_plain {info : Option FInfo} (hi : optForce info = false) {o : Obj} {h h' : Heap} {r : Ref} (hr : boxD f info o h = .ok (r, h')) :
    r = some h.length ∧ h' = (h.alloc o).2 := by
  simp only [boxD, hi, Bool.false_eq_true, if_false] at hr
  cases hr
  exact ⟨rfl, rfl⟩

/-- The pairs of a struct with a pair have the object made of it. -/
theorem structD_get (hord : ∀ dep, (ord dep).Perm dep) {tys : List (FInfo × DTy)} (hd : DistinctNames tys) {vs : List DV} (hl : vs.length = tys.length) {h h1 h' : Heap}
    {ps : List (Bytes × Ref)} {dep : SMap Bytes} {r : Ref} {info : Option FInfo} (hi : optForce info = false) (hm : DV.marfD ord oe D f vs tys h = .ok ((ps, dep), h1))
    (hs : structD ord oe f info ps dep h1 = .ok (r, h')) {k : Bytes} {a : Ref}
    (hk : (k, a) ∈ ps ∨ ∃ k' e, smGet (depMap tys) k = some k' ∧ DepEnd (depMap tys) k' e ∧ (e, a) ∈ ps) :
    ∃ m, r = some h1.length ∧ h' = (h1.alloc (.dict 0 m)).2 ∧ (k, a) ∈ m := by
  obtain ⟨k1, rfl⟩ := marfD_keys vs hl hm
  unfold structD at hs
  split at hs
  · cases hs
  · rename_i dps hdp
    have hne : ps ≠ [] := by
      rintro rfl
      rcases hk with hk | ⟨_, _, _, _, hk⟩ <;> cases hk
    rw [if_neg (by cases ps with | nil => exact absurd rfl hne | cons _ _ => simp)] at hs
    obtain ⟨e1, e2⟩ := boxD_plain hi hs
    refine ⟨_, e1, e2, smGet_mem ((struct_pairs hord hd (k1.nodup hd) (fun k v hkv => ?_) hdp k a).2 hk)⟩
    obtain ⟨i, x, ⟨t, g2⟩, g3, g4⟩ := marfD_src vs hm k v hkv
    exact ⟨x, _, List.mem_of_getElem? g2, g3, g4⟩

/-- **The objects are put where `Put` says.** -/
theorem marD_put (hord : ∀ dep, (ord dep).Perm dep) (hdis : D.Distinct) {t : DTy} {s : Bool} {x : DV} {p : List Move} {b : Addr} (hput : x.Put D oe t s p b) :
    ∀ {h h' : Heap} {info : Option FInfo} {r : Ref} {u : UV}, x.Is h u → u.HasTy D.env.defs t.ty → optForce info = s → DV.marD ord oe D f x t h info = .ok (r, h') →
      ∃ a, r = some a ∧ Way h' a p b := by
  induction hput with
  | here t s b => intro h h' info r u hx ht hi hr; simp only [DV.marD] at hr; cases hr; exact ⟨b, rfl, .here b⟩
  | ptr hp ih =>
    intro h h' info r u hx ht hi hr
    simp only [DV.Is] at hx
    obtain ⟨w, rfl, h1⟩ := hx
    simp only [UV.HasTy, DTy.ty] at ht
    obtain ⟨t', ht, hw⟩ := ht
    cases ht
    simp only [DV.marD, DTy.elem] at hr
    exact ih h1 hw hi hr
  | @elem t xs sp i x p b hxi hp ih =>
    intro h h' info r u hx ht hi hr
    simp only [DV.Is] at hx
    obtain ⟨us, ss, rfl, h1, h2⟩ := hx
    simp only [UV.HasTy, DTy.ty] at ht
    obtain ⟨t', ht, hts, _⟩ := ht
    cases ht
    simp only [DV.marD, DTy.elem] at hr
    rw [if_neg (by cases xs with | nil => simp at hxi | cons _ _ => simp)] at hr
    split at hr
    · rename_i rs h3 hrs
      obtain ⟨e1, e2⟩ := boxD_plain hi hr
      obtain ⟨g0, g1, r1, k1, k2, k3, k4⟩ := marsD_get xs h1 hrs i x hxi
      obtain ⟨u, hu1, hu2⟩ := Iss_at h1 hts i x hxi
      obtain ⟨a, rfl, hw⟩ := ih (Is_mono k1 x u hu1) hu2 rfl k2
      subst e1 e2
      exact ⟨_, rfl, .elem (alloc_get h3 _) (k4 rfl) (hw.mono (k3.trans (alloc_prefix h3 _)))⟩
    · cases hr
    · cases hr
  | @entry t m k x p b hxi hp ih =>
    intro h h' info r u hx ht hi hr
    simp only [DV.Is] at hx
    obtain ⟨us, rfl, h1⟩ := hx
    simp only [UV.HasTy, DTy.ty] at ht
    obtain ⟨hsort, t', ht, hts⟩ := ht
    rcases ht with ht | ht <;> cases ht
    simp only [DV.marD, DTy.elem] at hr
    rw [if_neg (by cases m with | nil => simp at hxi | cons _ _ => simp)] at hr
    split at hr
    · rename_i rs h3 hrs
      obtain ⟨e1, e2⟩ := boxD_plain hi hr
      obtain ⟨g0, g1, r1, k1, k2, k3, k4⟩ := marmD_get m h1 hrs k x hxi
      obtain ⟨u, hu1, hu2⟩ := Ism_at h1 hts k x hxi
      obtain ⟨a, rfl, hw⟩ := ih (Is_mono k1 x u hu1) hu2 rfl k2
      subst e1 e2
      have hnod : (rs.map (·.1)).Nodup := (marmD_keys m hrs).nodup (by rw [← Ism_keys h1]; exact sorted_keys_nodupM hsort)
      exact ⟨_, rfl, .key (alloc_get h3 _) (smGet_mem ((pairsDict_get rs hnod k (some a)).2 (k4 rfl))) (hw.mono (k3.trans (alloc_prefix h3 _)))⟩
    · cases hr
    · cases hr
  | @field n i fs tys finfo t x p b hd hty hfi hprop hp ih =>
    intro h h' info r u hx ht hi hr
    obtain ⟨us, h1, hts⟩ := struct_is hd hx ht
    simp only [DV.marD, DEnv.fields, List.getD_eq_getElem?_getD, hd, Option.getD_some] at hr
    split at hr
    · rename_i ps dep h3 hrs
      obtain ⟨hl, hat⟩ := Issf_at h1 hts
      obtain ⟨g0, g1, r1, k1, k2, k3, k4⟩ := marfD_get fs hrs i finfo t x hty hfi hprop
      obtain ⟨u, hu1, hu2⟩ := hat i finfo t x hty hfi
      obtain ⟨a, rfl, hw⟩ := ih (Is_mono k1 x u hu1) hu2 rfl k2
      obtain ⟨m, e1, e2, e3⟩ := structD_get hord (hdis n tys hd) hl hi hrs hr (k := finfo.name) (a := some a) (.inl (k4 rfl))
      subst e1 e2
      exact ⟨_, rfl, .key (alloc_get h3 _) e3 (hw.mono (k3.trans (alloc_prefix h3 _)))⟩
    · cases hr
    · cases hr
  | @old n i j fs tys finfo info' t t' x p b k hd htj hig hdep hend hty hfi hprop hp ih =>
    intro h h' info r u hx ht hi hr
    obtain ⟨us, h1, hts⟩ := struct_is hd hx ht
    simp only [DV.marD, DEnv.fields, List.getD_eq_getElem?_getD, hd, Option.getD_some] at hr
    split at hr
    · rename_i ps dep h3 hrs
      obtain ⟨hl, hat⟩ := Issf_at h1 hts
      obtain ⟨g0, g1, r1, k1, k2, k3, k4⟩ := marfD_get fs hrs i finfo t x hty hfi hprop
      obtain ⟨u, hu1, hu2⟩ := hat i finfo t x hty hfi
      obtain ⟨a, rfl, hw⟩ := ih (Is_mono k1 x u hu1) hu2 rfl k2
      obtain ⟨m, e1, e2, e3⟩ := structD_get hord (hdis n tys hd) hl hi hrs hr (k := info'.name) (a := some a)
        (.inr ⟨k, finfo.name, depMap_get (hdis n tys hd) (List.mem_of_getElem? htj) hig hdep, hend, k4 rfl⟩)
      subst e1 e2
      exact ⟨_, rfl, .key (alloc_get h3 _) e3 (hw.mono (k3.trans (alloc_prefix h3 _)))⟩
    · cases hr
    · cases hr

/-! ### Nothing else of the old memory is in the result -/

/-- What a new object may hold: new objects, the shared instances, and objects that are put. -/
def Tgt (L S : Addr → Prop) (b : Addr) : Prop := L b ∨ b < 3 ∨ S b

/-- `L` are new objects that hold only such. -/
def Built (h h' : Heap) (L S : Addr → Prop) : Prop := ∀ i, L i → h.length ≤ i ∧ i < h'.length ∧ ∀ o, h'[i]? = some o → ∀ b, some b ∈ o.refs → Tgt L S b

theorem Built.empty (h h' : Heap) (S : Addr → Prop) : Built h h' (fun _ => False) S := fun _ h => h.elim

theorem Built.later {h h' h'' : Heap} {L S : Addr → Prop} (hb : Built h h' L S) (hp : h' <+: h'') : Built h h'' L S := fun i hi => by
  obtain ⟨h1, h2, h3⟩ := hb i hi
  have hl := hp.length_le
  refine ⟨h1, Nat.lt_of_lt_of_le h2 hl, fun o ho => h3 o ?_⟩
  obtain ⟨w, rfl⟩ := hp
  rwa [List.getElem?_append_left h2] at ho

theorem Built.imp {h h' : Heap} {L S S' : Addr → Prop} (hb : Built h h' L S) (hs : ∀ b, S b → S' b) : Built h h' L S' := fun i hi => by
  obtain ⟨h1, h2, h3⟩ := hb i hi
  exact ⟨h1, h2, fun o ho b hm => (h3 o ho b hm).imp_right (Or.imp_right (hs b))⟩

theorem Built.join {h h1 h2 : Heap} {L L' S : Addr → Prop} (hb : Built h h1 L S) (hp1 : h <+: h1) (hp : h1 <+: h2) (hb' : Built h1 h2 L' S) :
    Built h h2 (fun i => L i ∨ L' i) S := fun i hi => by
  have hl := hp1.length_le
  rcases hi with hi | hi
  · obtain ⟨h3, h4, h5⟩ := hb.later hp i hi
    refine ⟨h3, h4, fun o ho b hm => (h5 o ho b hm).imp_left .inl⟩
  · obtain ⟨h3, h4, h5⟩ := hb' i hi
    refine ⟨by omega, h4, fun o ho b hm => (h5 o ho b hm).imp_left .inr⟩

/-- A new object made of such. -/
theorem Built.box {h h1 : Heap} {L S : Addr → Prop} (hb : Built h h1 L S) (hp : h <+: h1) {o : Obj} (ho : ∀ b, some b ∈ o.refs → Tgt L S b) :
    Built h (h1.alloc o).2 (fun i => L i ∨ i = h1.length) S := fun i hi => by
  have hl := hp.length_le
  rcases hi with hi | hi
  · obtain ⟨h3, h4, h5⟩ := hb.later (alloc_prefix h1 o) i hi
    exact ⟨h3, h4, fun o ho b hm => (h5 o ho b hm).imp_left .inl⟩
  · subst hi
    refine ⟨hl, by simp [Heap.alloc], fun o' ho' b hm => ?_⟩
    have e := alloc_get h1 o
    simp only [Heap.alloc] at e ho'
    rw [e] at ho'
    cases ho'
    exact (ho b hm).imp_left .inl

/-- A new text. -/
theorem Built.text (h h1 : Heap) (hp : h <+: h1) (s : Bytes) (S : Addr → Prop) : Built h (h1.alloc (.str s)).2 (fun i => False ∨ i = h1.length) S :=
  (Built.empty h h1 S).box hp (by intro b hb; cases hb)

theorem boxD_built {h h1 h' : Heap} {L S S' : Addr → Prop} (hb : Built h h1 L S) (hp : h <+: h1) {info : Option FInfo} {o : Obj} {r : Ref} (ho : ∀ b, some b ∈ o.refs → Tgt L S b)
    (hs : optForce info = false → ∀ b, S b → S' b) (hr : boxD f info o h1 = .ok (r, h')) : ∃ L', Built h h' L' S' ∧ ∀ a, r = some a → Tgt L' S' a := by
  cases hi : optForce info with
  | false =>
    obtain ⟨rfl, rfl⟩ := boxD_plain hi hr
    exact ⟨_, (hb.box hp ho).imp (hs hi), fun a ha => by cases ha; exact .inl (.inr rfl)⟩
  | true =>
    simp only [boxD, hi, if_true] at hr
    cases ht : textH f (h1.alloc o).2 (some (h1.alloc o).1) with
    | ok s =>
      rw [ht] at hr
      simp only [CRes.map] at hr
      cases hr
      exact ⟨_, Built.text h _ (hp.trans (alloc_prefix h1 o)) s S', fun a ha => by cases ha; exact .inl (.inr rfl)⟩
    | panic => rw [ht] at hr; cases hr
    | fuel => rw [ht] at hr; cases hr

theorem pairsDict_src {α : Type} {k : Bytes} {v : α} {ps : List (Bytes × α)} (hm : (k, v) ∈ pairsDict ps) : (k, v) ∈ ps := by
  unfold pairsDict at hm
  suffices H : ∀ (ps : List (Bytes × α)) (m : SMap α), (k, v) ∈ ps.foldl (fun m p => smAdd m p.1 p.2) m → (k, v) ∈ ps ∨ (k, v) ∈ m by
    rcases H ps [] hm with h | h
    · exact h
    · cases h
  intro ps
  induction ps with
  | nil => intro m h; exact .inr h
  | cons e ps ih =>
    intro m h
    rcases ih _ h with h | h
    · exact .inl (List.mem_cons_of_mem _ h)
    · rcases mem_smAdd h with h | h
      · exact .inl (by rw [h]; simp)
      · exact .inr h

theorem findValue_mem {α : Type} {k : Bytes} {v : α} : ∀ {ps : List (Bytes × α)}, findValueByKey ps k = some v → (k, v) ∈ ps
  | [], h => by cases h
  | (k', x) :: ps, h => by
    simp only [findValueByKey] at h
    split at h
    · rename_i hk
      cases h
      have : k' = k := hk
      subst this
      simp
    · exact List.mem_cons_of_mem _ (findValue_mem h)

theorem alloc_snd_length (h : Heap) (o : Obj) : (h.alloc o).2.length = h.length + 1 := by simp [Heap.alloc]

mutual
theorem marD_built (hord : ∀ dep, (ord dep).Perm dep) (hdis : D.Distinct) : ∀ (x : DV) {u : UV} {t : DTy} {h h' : Heap} {info : Option FInfo} {r : Ref}, x.Is h u → u.HasTy D.env.defs t.ty →
    DV.marD ord oe D f x t h info = .ok (r, h') →
    ∃ L, Built h h' L (fun b => ∃ p, x.Put D oe t (optForce info) p b) ∧ ∀ a, r = some a → Tgt L (fun b => ∃ p, x.Put D oe t (optForce info) p b) a
  | .nil, u, t, h, h', info, r, hx, ht, hr => by
    simp only [DV.marD] at hr
    cases hr
    refine ⟨_, .empty _ _ _, fun a ha => ?_⟩
    split at ha <;> cases ha
    exact .inr (.inl (by decide))
  | .sc x, u, t, h, h', info, r, hx, ht, hr => by
    simp only [DV.marD] at hr
    split at hr
    · cases hr; exact ⟨_, .empty _ _ _, fun a ha => by cases ha⟩
    · rename_i j hj
      cases hr
      have new : ∀ o : Obj, o.refs = [] → ∃ L, Built h (h.alloc o).2 L (fun b => ∃ p, (DV.sc x).Put D oe t (optForce info) p b) ∧
          ∀ a, some (h.alloc o).1 = some a → Tgt L (fun b => ∃ p, (DV.sc x).Put D oe t (optForce info) p b) a := fun o ho =>
        ⟨_, (Built.empty h h _).box (List.prefix_refl _) (by rw [ho]; intro b hb; cases hb), fun a ha => by cases ha; exact .inl (.inr rfl)⟩
      cases j with
      | int n => exact new (.int n) rfl
      | float n b => exact new (.float n b) rfl
      | str n => exact new (.str n) rfl
      | bool b => exact ⟨_, .empty _ _ _, fun a ha => by cases b <;> cases ha <;> exact .inr (.inl (by show (_ : Nat) < 3; simp [newScalar]))⟩
      | _ => exact ⟨_, .empty _ _ _, fun a ha => by cases ha; exact .inr (.inl (by show (_ : Nat) < 3; simp [newScalar, nullAddr]))⟩
  | .ref c, u, t, h, h', info, r, hx, ht, hr => by
    simp only [DV.marD] at hr
    cases hr
    exact ⟨_, .empty _ _ _, fun a ha => by cases ha; exact .inr (.inr ⟨[], .here t _ c⟩)⟩
  | .seq xs sp, u, t, h, h', info, r, hx, ht, hr => by
    simp only [DV.Is] at hx
    obtain ⟨us, ss, rfl, h1, h2⟩ := hx
    simp only [UV.HasTy] at ht
    obtain ⟨t', ht, hts, _⟩ := ht
    obtain ⟨t2, rfl⟩ : ∃ t2, t = .slice t2 := by
      cases t with
      | slice t2 => exact ⟨t2, rfl⟩
      | sc s => cases s <;> cases ht
      | _ => cases ht
    cases ht
    simp only [DV.marD, DTy.elem] at hr
    split at hr
    · cases hr; exact ⟨_, .empty _ _ _, fun a ha => by cases ha⟩
    · split at hr
      · rename_i rs h3 hrs
        obtain ⟨L, k1, k2⟩ := marsD_built hord hdis xs h1 hts hrs
        refine boxD_built k1 (marsD_prefix xs hrs) (o := .arr rs) (fun b hb => k2 b hb) (fun hi b hb => ?_) hr
        obtain ⟨i, x, p, g1, g2⟩ := hb
        rw [hi]
        exact ⟨_, .elem g1 g2⟩
      · cases hr
      · cases hr
  | .map m, u, t, h, h', info, r, hx, ht, hr => by
    simp only [DV.Is] at hx
    obtain ⟨us, rfl, h1⟩ := hx
    simp only [UV.HasTy] at ht
    obtain ⟨_, t', ht, hts⟩ := ht
    obtain ⟨t2, rfl, rfl⟩ : ∃ t2, t = .map t2 ∧ t' = t2.ty := by
      cases t with
      | map t2 => exact ⟨t2, rfl, by rcases ht with ht | ht <;> cases ht; rfl⟩
      | sc s => cases s <;> rcases ht with ht | ht <;> cases ht
      | _ => rcases ht with ht | ht <;> cases ht
    simp only [DV.marD, DTy.elem] at hr
    split at hr
    · cases hr; exact ⟨_, .empty _ _ _, fun a ha => by cases ha⟩
    · split at hr
      · rename_i rs h3 hrs
        obtain ⟨L, k1, k2⟩ := marmD_built hord hdis m h1 hts hrs
        refine boxD_built k1 (marmD_prefix m hrs) (o := .dict 0 (pairsDict rs)) (fun b hb => ?_) (fun hi b hb => ?_) hr
        · obtain ⟨⟨k, r'⟩, g1, g2⟩ := List.mem_map.1 hb
          simp only at g2
          subst g2
          exact k2 k b (pairsDict_src g1)
        · obtain ⟨k, x, p, g1, g2⟩ := hb
          rw [hi]
          exact ⟨_, .entry g1 g2⟩
      · cases hr
      · cases hr
  | .struct vs, u, t, h, h', info, r, hx, ht, hr => by
    obtain ⟨n, tys, rfl, hd⟩ : ∃ n tys, t = .struct n ∧ D.defs[n]? = some tys := by
      simp only [DV.Is] at hx
      obtain ⟨us, rfl, h1⟩ := hx
      simp only [UV.HasTy] at ht
      obtain ⟨n, fs, ht, hd, _⟩ := ht
      cases t with
      | struct n' =>
        cases ht
        simp only [DEnv.env, List.getElem?_map] at hd
        cases hd2 : D.defs[n]? with
        | none => rw [hd2] at hd; cases hd
        | some tys => exact ⟨n, tys, rfl, hd2⟩
      | sc s => cases s <;> cases ht
      | _ => cases ht
    obtain ⟨us, h1, hts⟩ := struct_is hd hx ht
    obtain ⟨hl, _⟩ := Issf_at h1 hts
    simp only [DV.marD, DEnv.fields, List.getD_eq_getElem?_getD, hd, Option.getD_some] at hr
    split at hr
    · rename_i ps dep h3 hrs
      obtain ⟨L, k1, k2⟩ := marfD_built hord hdis vs h1 hts hrs
      obtain ⟨_, rfl⟩ := marfD_keys vs hl hrs
      unfold structD at hr
      split at hr
      · cases hr
      · rename_i dps hdp
        split at hr
        · cases hr; exact ⟨_, .empty _ _ _, fun a ha => by cases ha⟩
        · refine boxD_built k1 (marfD_prefix vs hrs) (o := .dict 0 (pairsDict (ps ++ dps))) (fun b hb => ?_) (fun hi b hb => ?_) hr
          · obtain ⟨⟨k, r'⟩, g1, g2⟩ := List.mem_map.1 hb
            simp only at g2
            subst g2
            rcases List.mem_append.1 (pairsDict_src g1) with g | g
            · exact k2 k b g
            · obtain ⟨k', e, g3, g4, g5⟩ := ((Props.C41_result (depMap tys) (depMap_sorted tys) ps (ord (depMap tys)) (hord _) _ dps hdp).1 k (some b)).1 g
              exact k2 e b (findValue_mem g5)
          · obtain ⟨i, finfo, t, x, p, g1, g2, g3, g4⟩ := hb
            rw [hi]
            exact ⟨_, .field hd g1 g2 g3 g4⟩
    · cases hr
    · cases hr
  | .ptr x, u, t, h, h', info, r, hx, ht, hr => by
    simp only [DV.Is] at hx
    obtain ⟨w, rfl, h1⟩ := hx
    simp only [UV.HasTy] at ht
    obtain ⟨t', ht, hw⟩ := ht
    obtain ⟨t2, rfl⟩ : ∃ t2, t = .ptr t2 := by
      cases t with
      | ptr t2 => exact ⟨t2, rfl⟩
      | sc s => cases s <;> cases ht
      | _ => cases ht
    cases ht
    simp only [DV.marD, DTy.elem] at hr
    obtain ⟨L, k1, k2⟩ := marD_built hord hdis x h1 hw hr
    exact ⟨L, k1.imp fun b ⟨p, hp⟩ => ⟨p, .ptr hp⟩, fun a ha => (k2 a ha).imp_right (Or.imp_right fun ⟨p, hp⟩ => ⟨p, .ptr hp⟩)⟩
theorem marsD_built (hord : ∀ dep, (ord dep).Perm dep) (hdis : D.Distinct) : ∀ (xs : List DV) {us : List UV} {t : DTy} {h h' : Heap} {rs : List Ref}, DV.Iss h xs us → UV.HasTys D.env.defs us t.ty →
    DV.marsD ord oe D f xs t h = .ok (rs, h') →
    ∃ L, Built h h' L (fun b => ∃ (i : Nat) (x : DV) (p : List Move), xs[i]? = some x ∧ x.Put D oe t false p b) ∧
      ∀ a, some a ∈ rs → Tgt L (fun b => ∃ (i : Nat) (x : DV) (p : List Move), xs[i]? = some x ∧ x.Put D oe t false p b) a
  | [], us, t, h, h', rs, hx, ht, hr => by simp only [DV.marsD] at hr; cases hr; exact ⟨_, .empty _ _ _, fun a ha => by cases ha⟩
  | y :: xs, us, t, h, h', rs, hx, ht, hr => by
    obtain ⟨u, ur, rfl, hu1, hu2⟩ := hx
    obtain ⟨ht1, ht2⟩ := ht
    simp only [DV.marsD] at hr
    split at hr
    · rename_i r1 h1 hy
      split at hr
      · rename_i rs2 h2 hys
        have e1 := marD_prefix y hy
        have e2 := marsD_prefix xs hys
        cases hr
        obtain ⟨L, k1, k2⟩ := marD_built hord hdis y hu1 ht1 hy
        obtain ⟨L', k3, k4⟩ := marsD_built hord hdis xs (Iss_mono e1 xs ur hu2) ht2 hys
        have i1 : ∀ b, (∃ p, y.Put D oe t (optForce none) p b) → ∃ (i : Nat) (x : DV) (p : List Move), (y :: xs)[i]? = some x ∧ x.Put D oe t false p b :=
          fun b ⟨p, hp⟩ => ⟨0, y, p, rfl, hp⟩
        have i2 : ∀ b, (∃ (i : Nat) (x : DV) (p : List Move), xs[i]? = some x ∧ x.Put D oe t false p b) →
            ∃ (i : Nat) (x : DV) (p : List Move), (y :: xs)[i]? = some x ∧ x.Put D oe t false p b := fun b ⟨i, x, p, g1, g2⟩ => ⟨i + 1, x, p, by simpa using g1, g2⟩
        refine ⟨_, (k1.imp i1).join e1 e2 (k3.imp i2), fun a ha => ?_⟩
        have : r1 = some a ∨ some a ∈ rs2 := by
          split at ha
          · rcases List.mem_cons.1 ha with ha | ha
            · exact .inl ha.symm
            · exact .inr ha
          · exact .inr ha
        rcases this with ha | ha
        · exact (k2 a ha).imp .inl (Or.imp_right (i1 a))
        · exact (k4 a ha).imp .inr (Or.imp_right (i2 a))
      · cases hr
      · cases hr
    · cases hr
    · cases hr
theorem marmD_built (hord : ∀ dep, (ord dep).Perm dep) (hdis : D.Distinct) : ∀ (xs : List (Bytes × DV)) {us : List (Bytes × UV)} {t : DTy} {h h' : Heap} {rs : List (Bytes × Ref)}, DV.Ism h xs us → UV.HasTym D.env.defs us t.ty →
    DV.marmD ord oe D f xs t h = .ok (rs, h') →
    ∃ L, Built h h' L (fun b => ∃ (k : Bytes) (x : DV) (p : List Move), (k, x) ∈ xs ∧ x.Put D oe t false p b) ∧
      ∀ k a, (k, some a) ∈ rs → Tgt L (fun b => ∃ (k : Bytes) (x : DV) (p : List Move), (k, x) ∈ xs ∧ x.Put D oe t false p b) a
  | [], us, t, h, h', rs, hx, ht, hr => by simp only [DV.marmD] at hr; cases hr; exact ⟨_, .empty _ _ _, fun k a ha => by cases ha⟩
  | (k', y) :: xs, us, t, h, h', rs, hx, ht, hr => by
    obtain ⟨u, ur, rfl, hu1, hu2⟩ := hx
    obtain ⟨ht1, ht2⟩ := ht
    simp only [DV.marmD] at hr
    split at hr
    · rename_i r1 h1 hy
      split at hr
      · rename_i rs2 h2 hys
        have e1 := marD_prefix y hy
        have e2 := marmD_prefix xs hys
        cases hr
        obtain ⟨L, k1, k2⟩ := marD_built hord hdis y hu1 ht1 hy
        obtain ⟨L', k3, k4⟩ := marmD_built hord hdis xs (Ism_mono e1 xs ur hu2) ht2 hys
        have i1 : ∀ b, (∃ p, y.Put D oe t (optForce none) p b) → ∃ (k : Bytes) (x : DV) (p : List Move), (k, x) ∈ (k', y) :: xs ∧ x.Put D oe t false p b :=
          fun b ⟨p, hp⟩ => ⟨k', y, p, List.mem_cons_self .., hp⟩
        have i2 : ∀ b, (∃ (k : Bytes) (x : DV) (p : List Move), (k, x) ∈ xs ∧ x.Put D oe t false p b) →
            ∃ (k : Bytes) (x : DV) (p : List Move), (k, x) ∈ (k', y) :: xs ∧ x.Put D oe t false p b := fun b ⟨i, x, p, g1, g2⟩ => ⟨i, x, p, List.mem_cons_of_mem _ g1, g2⟩
        refine ⟨_, (k1.imp i1).join e1 e2 (k3.imp i2), fun k a ha => ?_⟩
        have : r1 = some a ∨ (k, some a) ∈ rs2 := by
          split at ha
          · rcases List.mem_cons.1 ha with ha | ha
            · cases ha; exact .inl rfl
            · exact .inr ha
          · exact .inr ha
        rcases this with ha | ha
        · exact (k2 a ha).imp .inl (Or.imp_right (i1 a))
        · exact (k4 k a ha).imp .inr (Or.imp_right (i2 a))
      · cases hr
      · cases hr
    · cases hr
    · cases hr
theorem marfD_built (hord : ∀ dep, (ord dep).Perm dep) (hdis : D.Distinct) : ∀ (xs : List DV) {us : List UV} {fs : List (FInfo × DTy)} {h h' : Heap} {rs : List (Bytes × Ref)} {dep : SMap Bytes}, DV.Iss h xs us →
    UV.HasTyf D.env.defs us (fs.map fun e => (e.1, e.2.ty)) → DV.marfD ord oe D f xs fs h = .ok ((rs, dep), h') →
    ∃ L, Built h h' L (fun b => ∃ (i : Nat) (info : FInfo) (t : DTy) (x : DV) (p : List Move), fs[i]? = some (info, t) ∧ xs[i]? = some x ∧ info.Proper ∧ x.Put D oe t info.forceString p b) ∧
      ∀ k a, (k, some a) ∈ rs →
        Tgt L (fun b => ∃ (i : Nat) (info : FInfo) (t : DTy) (x : DV) (p : List Move), fs[i]? = some (info, t) ∧ xs[i]? = some x ∧ info.Proper ∧ x.Put D oe t info.forceString p b) a
  | [], us, fs, h, h', rs, dep, hx, ht, hr => by simp only [DV.marfD] at hr; cases hr; exact ⟨_, .empty _ _ _, fun k a ha => by cases ha⟩
  | y :: xs, us, [], h, h', rs, dep, hx, ht, hr => by simp only [DV.marfD] at hr; cases hr; exact ⟨_, .empty _ _ _, fun k a ha => by cases ha⟩
  | y :: xs, us, (i', t') :: fs, h, h', rs, dep, hx, ht, hr => by
    obtain ⟨u, ur, rfl, hu1, hu2⟩ := hx
    simp only [UV.HasTyf, List.map_cons, List.cons.injEq, Prod.mk.injEq] at ht
    obtain ⟨_, _, _, ⟨⟨rfl, rfl⟩, rfl⟩, ht1, ht2⟩ := ht
    have i2 : ∀ b, (∃ (i : Nat) (info : FInfo) (t : DTy) (x : DV) (p : List Move), fs[i]? = some (info, t) ∧ xs[i]? = some x ∧ info.Proper ∧ x.Put D oe t info.forceString p b) →
        ∃ (i : Nat) (info : FInfo) (t : DTy) (x : DV) (p : List Move), ((i', t') :: fs)[i]? = some (info, t) ∧ (y :: xs)[i]? = some x ∧ info.Proper ∧ x.Put D oe t info.forceString p b :=
      fun b ⟨i, info, t, x, p, g1, g2, g3⟩ => ⟨i + 1, info, t, x, p, by simpa using g1, by simpa using g2, g3⟩
    simp only [DV.marfD] at hr
    split at hr
    · obtain ⟨L', k3, k4⟩ := marfD_built hord hdis xs hu2 ht2 hr
      exact ⟨L', k3.imp i2, fun k a ha => (k4 k a ha).imp_right (Or.imp_right (i2 a))⟩
    · rename_i hig
      split at hr
      · split at hr
        · rename_i hys
          cases hr
          obtain ⟨L', k3, k4⟩ := marfD_built hord hdis xs hu2 ht2 hys
          exact ⟨L', k3.imp i2, fun k a ha => (k4 k a ha).imp_right (Or.imp_right (i2 a))⟩
        · cases hr
        · cases hr
      · rename_i hdep
        split at hr
        · rename_i r1 h1 hy
          split at hr
          · rename_i rs2 dep2 h2 hys
            have e1 := marD_prefix y hy
            have e2 := marfD_prefix xs hys
            cases hr
            obtain ⟨L, k1, k2⟩ := marD_built hord hdis y hu1 ht1 hy
            obtain ⟨L', k3, k4⟩ := marfD_built hord hdis xs (Iss_mono e1 xs ur hu2) ht2 hys
            have i1 : ∀ b, (∃ p, y.Put D oe t' (optForce (some i')) p b) →
                ∃ (i : Nat) (info : FInfo) (t : DTy) (x : DV) (p : List Move), ((i', t') :: fs)[i]? = some (info, t) ∧ (y :: xs)[i]? = some x ∧ info.Proper ∧ x.Put D oe t info.forceString p b :=
              fun b ⟨p, hp⟩ => ⟨0, i', t', y, p, rfl, rfl, ⟨by simpa using hig, hdep⟩, hp⟩
            refine ⟨_, (k1.imp i1).join e1 e2 (k3.imp i2), fun k a ha => ?_⟩
            have : r1 = some a ∨ (k, some a) ∈ rs2 := by
              split at ha
              · rcases List.mem_cons.1 ha with ha | ha
                · cases ha; exact .inl rfl
                · exact .inr ha
              · exact .inr ha
            rcases this with ha | ha
            · exact (k2 a ha).imp .inl (Or.imp_right (i1 a))
            · exact (k4 k a ha).imp .inr (Or.imp_right (i2 a))
          · cases hr
          · cases hr
        · cases hr
        · cases hr
end

/-- What can be reached from the result. -/
theorem built_reach {h h' : Heap} (hok : h.Ok) (hp : h <+: h') {L S : Addr → Prop} (hb : Built h h' L S) (hS : ∀ c, S c → c < h.length) {a b : Addr} (ha : Tgt L S a)
    (hr : Reach h' a b) : h.length ≤ b ∨ b < 3 ∨ ∃ c, S c ∧ Reach h c b := by
  have base : ∀ i, i < 3 → ∀ o, h'[i]? = some o → o.refs = [] := by
    intro i hi o ho
    have h0 : h'[0]? = some .null := prefix_get hp (prefix_get hok.base rfl)
    have h1 : h'[1]? = some (.bool true) := prefix_get hp (prefix_get hok.base rfl)
    have h2 : h'[2]? = some (.bool false) := prefix_get hp (prefix_get hok.base rfl)
    match i, hi with
    | 0, _ => rw [h0] at ho; cases ho; rfl
    | 1, _ => rw [h1] at ho; cases ho; rfl
    | 2, _ => rw [h2] at ho; cases ho; rfl
  have inside : ∀ {c d : Addr}, c < h.length → Reach h c d → d < h.length := by
    intro c d hc hcd
    induction hcd with
    | refl => exact hc
    | step ho hm _ ih => exact ih (hok.inside _ (List.mem_of_getElem? ho) _ hm)
  have key : L a ∨ a < 3 ∨ ∃ c, S c ∧ Reach h c a := by
    rcases ha with ha | ha | ha
    · exact .inl ha
    · exact .inr (.inl ha)
    · exact .inr (.inr ⟨a, ha, .refl a⟩)
  clear ha
  suffices H : L b ∨ b < 3 ∨ ∃ c, S c ∧ Reach h c b by
    rcases H with H | H | H
    · exact .inl (hb b H).1
    · exact .inr (.inl H)
    · exact .inr (.inr H)
  induction hr with
  | refl => exact key
  | @step a b c o ho hm _ ih =>
    refine ih ?_
    rcases key with hl | hl | ⟨c, hc, hca⟩
    · rcases (hb a hl).2.2 o ho b hm with g | g | g
      · exact .inl g
      · exact .inr (.inl g)
      · exact .inr (.inr ⟨b, g, .refl b⟩)
    · rw [base a hl o ho] at hm; cases hm
    · have hlt := inside (hS c hc) hca
      obtain ⟨w, rfl⟩ := hp
      rw [List.getElem?_append_left hlt] at ho
      exact .inr (.inr ⟨c, hc, reach_trans hca (.step ho hm (.refl b))⟩)

theorem put_inside {h : Heap} {t : DTy} {s : Bool} {x : DV} {p : List Move} {c : Addr} (hput : x.Put D oe t s p c) : ∀ {u : UV}, x.Is h u → u.HasTy D.env.defs t.ty → ∃ j : J, j.Seen h c := by
  induction hput with
  | here t s b => intro u hx ht; simp only [DV.Is] at hx; obtain ⟨j, _, hj⟩ := hx; exact ⟨j, hj⟩
  | ptr hp ih =>
    intro u hx ht
    simp only [DV.Is] at hx
    obtain ⟨w, rfl, h1⟩ := hx
    simp only [UV.HasTy, DTy.ty] at ht
    obtain ⟨t', ht, hw⟩ := ht
    cases ht
    exact ih h1 hw
  | @elem t xs sp i x p b hxi hp ih =>
    intro u hx ht
    simp only [DV.Is] at hx
    obtain ⟨us, ss, rfl, h1, h2⟩ := hx
    simp only [UV.HasTy, DTy.ty] at ht
    obtain ⟨t', ht, hts, _⟩ := ht
    cases ht
    obtain ⟨u, hu1, hu2⟩ := Iss_at h1 hts i x hxi
    exact ih hu1 hu2
  | @entry t m k x p b hxi hp ih =>
    intro u hx ht
    simp only [DV.Is] at hx
    obtain ⟨us, rfl, h1⟩ := hx
    simp only [UV.HasTy, DTy.ty] at ht
    obtain ⟨hsort, t', ht, hts⟩ := ht
    rcases ht with ht | ht <;> cases ht
    obtain ⟨u, hu1, hu2⟩ := Ism_at h1 hts k x hxi
    exact ih hu1 hu2
  | @field n i fs tys finfo t x p b hd hty hfi hprop hp ih =>
    intro u hx ht
    obtain ⟨us, h1, hts⟩ := struct_is hd hx ht
    obtain ⟨u, hu1, hu2⟩ := (Issf_at h1 hts).2 i finfo t x hty hfi
    exact ih hu1 hu2
  | @old n i j fs tys finfo info' t t' x p b k hd htj hig hdep hend hty hfi hprop hp ih =>
    intro u hx ht
    obtain ⟨us, h1, hts⟩ := struct_is hd hx ht
    obtain ⟨u, hu1, hu2⟩ := (Issf_at h1 hts).2 i finfo t x hty hfi
    exact ih hu1 hu2

end Jsonutils
