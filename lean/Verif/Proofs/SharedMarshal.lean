import Verif.Spec.SharedMarshal
import Verif.Proofs.SharedLands
import Verif.Proofs.MarshalStruct
import Verif.Proofs.MarshalFacts
import Verif.Proofs.MarshalWf

/-!
# Proofs about documents made by `Marshal`
-/

namespace Jsonutils

variable {ord : SMap Bytes → List (Bytes × Bytes)} {oe : Bool} {D : DEnv} {f : Nat}

/-! ### Memory only grows -/

theorem newScalar_prefix (h : Heap) (j : J) : h <+: (newScalar h j).2 := by
  cases j <;> first | exact List.prefix_refl _ | exact ⟨_, rfl⟩

theorem boxD_prefix {info : Option FInfo} {o : Obj} {h h' : Heap} {r : Ref} (hr : boxD f info o h = .ok (r, h')) : h <+: h' := by
  unfold boxD at hr
  simp only at hr
  split at hr
  · cases ht : textH f (h.alloc o).2 (some (h.alloc o).1) with
    | ok s => rw [ht] at hr; simp only [CRes.map] at hr; cases hr; exact (alloc_prefix h o).trans (alloc_prefix _ _)
    | panic => rw [ht] at hr; cases hr
    | fuel => rw [ht] at hr; cases hr
  · cases hr; exact alloc_prefix h o

theorem structD_prefix {info : Option FInfo} {ps : List (Bytes × Ref)} {dep : SMap Bytes} {h h' : Heap} {r : Ref}
    (hr : structD ord oe f info ps dep h = .ok (r, h')) : h <+: h' := by
  unfold structD at hr
  split at hr
  · cases hr
  · split at hr
    · cases hr; exact List.prefix_refl _
    · exact boxD_prefix hr

mutual
theorem marD_prefix : ∀ (x : DV) {t : DTy} {h h' : Heap} {info : Option FInfo} {r : Ref}, DV.marD ord oe D f x t h info = .ok (r, h') → h <+: h'
  | .nil, t, h, h', info, r, hr => by simp only [DV.marD] at hr; cases hr; exact List.prefix_refl _
  | .sc x, t, h, h', info, r, hr => by
    simp only [DV.marD] at hr
    split at hr
    · cases hr; exact List.prefix_refl _
    · cases hr; exact newScalar_prefix h _
  | .ref a, t, h, h', info, r, hr => by simp only [DV.marD] at hr; cases hr; exact List.prefix_refl _
  | .seq xs sp, t, h, h', info, r, hr => by
    simp only [DV.marD] at hr
    split at hr
    · cases hr; exact List.prefix_refl _
    · split at hr
      · rename_i hx; exact (marsD_prefix xs hx).trans (boxD_prefix hr)
      · cases hr
      · cases hr
  | .map m, t, h, h', info, r, hr => by
    simp only [DV.marD] at hr
    split at hr
    · cases hr; exact List.prefix_refl _
    · split at hr
      · rename_i hx; exact (marmD_prefix m hx).trans (boxD_prefix hr)
      · cases hr
      · cases hr
  | .struct vs, t, h, h', info, r, hr => by
    simp only [DV.marD] at hr
    split at hr
    · rename_i hx; exact (marfD_prefix vs hx).trans (structD_prefix hr)
    · cases hr
    · cases hr
  | .ptr x, t, h, h', info, r, hr => by simp only [DV.marD] at hr; exact marD_prefix x hr
theorem marsD_prefix : ∀ (xs : List DV) {t : DTy} {h h' : Heap} {rs : List Ref}, DV.marsD ord oe D f xs t h = .ok (rs, h') → h <+: h'
  | [], t, h, h', rs, hr => by simp only [DV.marsD] at hr; cases hr; exact List.prefix_refl _
  | x :: xs, t, h, h', rs, hr => by
    simp only [DV.marsD] at hr
    split at hr
    · rename_i h1
      split at hr
      · rename_i h2; cases hr; exact (marD_prefix x h1).trans (marsD_prefix xs h2)
      · cases hr
      · cases hr
    · cases hr
    · cases hr
theorem marmD_prefix : ∀ (xs : List (Bytes × DV)) {t : DTy} {h h' : Heap} {rs : List (Bytes × Ref)}, DV.marmD ord oe D f xs t h = .ok (rs, h') → h <+: h'
  | [], t, h, h', rs, hr => by simp only [DV.marmD] at hr; cases hr; exact List.prefix_refl _
  | (k, x) :: xs, t, h, h', rs, hr => by
    simp only [DV.marmD] at hr
    split at hr
    · rename_i h1
      split at hr
      · rename_i h2; cases hr; exact (marD_prefix x h1).trans (marmD_prefix xs h2)
      · cases hr
      · cases hr
    · cases hr
    · cases hr
theorem marfD_prefix : ∀ (xs : List DV) {fs : List (FInfo × DTy)} {h h' : Heap} {rs : List (Bytes × Ref) × SMap Bytes}, DV.marfD ord oe D f xs fs h = .ok (rs, h') → h <+: h'
  | [], fs, h, h', rs, hr => by simp only [DV.marfD] at hr; cases hr; exact List.prefix_refl _
  | x :: xs, [], h, h', rs, hr => by simp only [DV.marfD] at hr; cases hr; exact List.prefix_refl _
  | x :: xs, (i, t) :: fs, h, h', rs, hr => by
    simp only [DV.marfD] at hr
    split at hr
    · exact marfD_prefix xs hr
    · split at hr
      · split at hr
        · rename_i h1; cases hr; exact marfD_prefix xs h1
        · cases hr
        · cases hr
      · split at hr
        · rename_i h1
          split at hr
          · rename_i h2; cases hr; exact (marD_prefix x h1).trans (marfD_prefix xs h2)
          · cases hr
          · cases hr
        · cases hr
        · cases hr
end

/-! ### The content -/

theorem elem_ty {t t' : DTy} (h : t.ty = .slice t'.ty ∨ t.ty = .map t'.ty ∨ t.ty = .ptr t'.ty) : t.elem.ty = t'.ty := by
  cases t with
  | sc s => cases s <;> simp [DTy.ty, Sc.ty] at h
  | _ => simp_all [DTy.ty, DTy.elem]

/-- What is returned, as content: nothing, or an object that reads as the document. -/
def LandsAs (o : Option J) (r : Ref) (h : Heap) : Prop := match o with
  | none => r = none
  | some j => ∃ a, r = some a ∧ j.Seen h a

/-- Not a container and not a reference. -/
def J.IsScalar : J → Prop
  | .arr _ => False
  | .dict _ _ => False
  | .ptr _ => False
  | _ => True

theorem leaf_scalar {l : UV} {t : DTy} {info : Option FInfo} {j : J} (hj : (scLeaf l t).marshal info oe = some j) : j.IsScalar := by
  unfold scLeaf at hj
  split at hj
  all_goals
    simp only [Leaf.marshal, marshalInt64, newInt, marshalFloat32, newFloat32, marshalFloat64, newFloat64, marshalBoolean, marshalString] at hj
    repeat' split at hj
  all_goals first | (cases hj; done) | (cases hj; trivial)

theorem newScalar_seen {h : Heap} (hb : Heap.base <+: h) {l : UV} {t : DTy} {info : Option FInfo} {j : J} (hj : (scLeaf l t).marshal info oe = some j) :
    j.Seen (newScalar h j).2 (newScalar h j).1 := by
  have hnull : h[0]? = some .null := prefix_get hb rfl
  have htrue : h[1]? = some (.bool true) := prefix_get hb rfl
  have hfalse : h[2]? = some (.bool false) := prefix_get hb rfl
  have key : j.IsScalar := leaf_scalar hj
  cases j with
  | null => exact ⟨trivial, hnull⟩
  | bool b => cases b <;> exact ⟨trivial, by first | exact htrue | exact hfalse⟩
  | int n => exact ⟨trivial, alloc_get h _⟩
  | float x bit => exact ⟨trivial, alloc_get h _⟩
  | str s => exact ⟨trivial, alloc_get h _⟩
  | _ => exact key.elim

theorem boxD_is {info : Option FInfo} {o : Obj} {h : Heap} {j : J} (hs : j.Seen (h.alloc o).2 (h.alloc o).1) :
    ∃ f0 r h', (∀ f, f0 ≤ f → boxD f info o h = .ok (r, h')) ∧ h <+: h' ∧ LandsAs (some (forceJ info j)) r h' := by
  cases hf : optForce info with
  | false =>
    refine ⟨0, some (h.alloc o).1, (h.alloc o).2, fun f _ => ?_, alloc_prefix h o, _, rfl, ?_⟩
    · simp only [boxD, hf, Bool.false_eq_true, if_false]
    · simp only [forceJ, hf, Bool.false_eq_true, if_false]; exact hs
  | true =>
    refine ⟨j.size, some ((h.alloc o).2.alloc (.str j.toBytes)).1, ((h.alloc o).2.alloc (.str j.toBytes)).2, fun f hfl => ?_,
      (alloc_prefix h o).trans (alloc_prefix _ _), _, rfl, ?_⟩
    · simp only [boxD, hf, if_true, text_seen hs hfl, CRes.map]
    · simp only [forceJ, hf, if_true]; exact ⟨trivial, alloc_get _ _⟩

theorem Atf_append {h : Heap} {P : Addr → Prop} : ∀ {xs ys : List (Bytes × J)} {rs qs : List (Bytes × Ref)}, J.Atf h P xs rs → J.Atf h P ys qs → J.Atf h P (xs ++ ys) (rs ++ qs)
  | [], ys, rs, qs, h1, h2 => by simp only [J.Atf] at h1; subst h1; exact h2
  | (k, x) :: xs, ys, rs, qs, h1, h2 => by
    obtain ⟨b, r', rfl, h3, h4⟩ := h1
    exact ⟨b, _, rfl, h3, Atf_append h4 h2⟩

theorem Atf_isEmpty {h : Heap} {P : Addr → Prop} {xs : List (Bytes × J)} {rs : List (Bytes × Ref)} (h1 : J.Atf h P xs rs) : rs.isEmpty = xs.isEmpty := by
  cases xs with
  | nil => simp only [J.Atf] at h1; subst h1; rfl
  | cons e xs => obtain ⟨k, x⟩ := e; obtain ⟨b, r', rfl, _⟩ := h1; rfl

theorem Atf_pairsDict {h : Heap} {ps : List (Bytes × J)} {rs : List (Bytes × Ref)} (hp : J.Atf h (fun _ => True) ps rs) :
    J.Atf h (fun _ => True) (pairsDict ps) (pairsDict rs) := by
  suffices H : ∀ (ps : List (Bytes × J)) (rs : List (Bytes × Ref)) (m : SMap J) (q : SMap Ref), SMap.Sorted m → J.Atf h (fun _ => True) ps rs → J.Atf h (fun _ => True) m q →
      J.Atf h (fun _ => True) (ps.foldl (fun m p => smAdd m p.1 p.2) m) (rs.foldl (fun m p => smAdd m p.1 p.2) q) from
    H ps rs [] [] sorted_nil hp rfl
  intro ps
  induction ps with
  | nil => intro rs m q _ h1 h2; simp only [J.Atf] at h1; subst h1; exact h2
  | cons e ps ih =>
    obtain ⟨k, x⟩ := e
    intro rs m q hm h1 h2
    obtain ⟨b, r', rfl, h3, h4⟩ := h1
    exact ih r' _ _ (sorted_smAdd hm _ _) h4 (Atf_smAdd h3 m q hm h2 fun _ _ _ _ _ hx => hx)

theorem Atf_find {h : Heap} {P : Addr → Prop} (k : Bytes) : ∀ {ps : List (Bytes × J)} {rs : List (Bytes × Ref)}, J.Atf h P ps rs →
    (findValueByKey ps k = none ∧ findValueByKey rs k = none) ∨ ∃ x b, findValueByKey ps k = some x ∧ findValueByKey rs k = some (some b) ∧ x.At h P b
  | [], rs, h1 => by simp only [J.Atf] at h1; subst h1; exact .inl ⟨rfl, rfl⟩
  | (k', x) :: ps, rs, h1 => by
    obtain ⟨b, r', rfl, h3, h4⟩ := h1
    simp only [findValueByKey]
    split
    · exact .inr ⟨x, b, rfl, rfl, h3⟩
    · exact Atf_find k h4

theorem Atf_depPairs {h : Heap} {P : Addr → Prop} {dep : SMap Bytes} {n : Nat} {ps : List (Bytes × J)} {rs : List (Bytes × Ref)} (hp : J.Atf h P ps rs) :
    ∀ (todo : List (Bytes × Bytes)), (depPairs dep n ps todo = none ∧ depPairs dep n rs todo = none) ∨
      ∃ dps drs, depPairs dep n ps todo = some dps ∧ depPairs dep n rs todo = some drs ∧ J.Atf h P dps drs
  | [] => .inr ⟨[], [], rfl, rfl, rfl⟩
  | (dk, k) :: todo => by
    cases hc : chaseDep dep dk n k with
    | none => exact .inl ⟨by simp only [depPairs, hc], by simp only [depPairs, hc]⟩
    | some found =>
      rcases Atf_depPairs (dep := dep) (n := n) hp todo with ⟨h1, h2⟩ | ⟨dps, drs, h1, h2, h3⟩
      · exact .inl ⟨by simp only [depPairs, hc, h1], by simp only [depPairs, hc, h2]⟩
      · cases found with
        | none => exact .inr ⟨dps, drs, by simp only [depPairs, hc, h1], by simp only [depPairs, hc, h2], h3⟩
        | some e =>
          rcases Atf_find e hp with ⟨h4, h5⟩ | ⟨x, b, h4, h5, h6⟩
          · exact .inr ⟨dps, drs, by simp only [depPairs, hc, h1, h4], by simp only [depPairs, hc, h2, h5], h3⟩
          · exact .inr ⟨(dk, x) :: dps, (dk, some b) :: drs, by simp only [depPairs, hc, h1, h4], by simp only [depPairs, hc, h2, h5], b, drs, rfl, h6, h3⟩

theorem fields_env (t : DTy) : t.ty.fields D.env.defs = (D.fields t).map fun e => (e.1, e.2.ty) := by
  cases t with
  | struct n =>
    simp only [DTy.ty, Ty.fields, DEnv.fields, DEnv.env, List.getD_eq_getElem?_getD, List.getElem?_map]
    cases D.defs[n]? <;> rfl
  | sc s => cases s <;> rfl
  | _ => rfl

theorem scLeaf_toTV {x : UV} {t : DTy} (hx : x.IsPlain) : x.toTV D.env.defs t.ty = .leaf (scLeaf x t) := by
  cases x with
  | float y =>
    cases t with
    | sc s => cases s <;> rfl
    | _ => rfl
  | bool b => rfl
  | int n => rfl
  | str s => rfl
  | _ => exact hx.elim

mutual
theorem marD_is : ∀ (x : DV) (u : UV) (t : DTy) (h : Heap) (info : Option FInfo) (o : Option J), Heap.base <+: h → x.Is h u → u.HasTy D.env.defs t.ty →
    TV.mar ord oe (u.toTV D.env.defs t.ty) info = some o →
    ∃ f0 r h', (∀ f, f0 ≤ f → DV.marD ord oe D f x t h info = .ok (r, h')) ∧ h <+: h' ∧ LandsAs o r h'
  | .nil, u, t, h, info, o, hb, hx, ht, hm => by
    simp only [DV.Is] at hx
    subst hx
    simp only [UV.toTV, TV.mar, Leaf.marshal] at hm
    refine ⟨0, if oe then none else some nullAddr, h, fun f _ => by simp only [DV.marD], List.prefix_refl _, ?_⟩
    cases oe with
    | true => simp only [if_true] at hm; cases hm; rfl
    | false => simp at hm; subst hm; exact ⟨0, rfl, trivial, prefix_get hb rfl⟩
  | .sc x, u, t, h, info, o, hb, hx, ht, hm => by
    simp only [DV.Is] at hx
    obtain ⟨rfl, hp⟩ := hx
    rw [scLeaf_toTV hp] at hm
    simp only [TV.mar, Option.some.injEq] at hm
    cases o with
    | none => exact ⟨0, none, h, fun f _ => by simp only [DV.marD, hm], List.prefix_refl _, rfl⟩
    | some j => exact ⟨0, _, _, fun f _ => by simp only [DV.marD, hm], newScalar_prefix h j, _, rfl, newScalar_seen hb hm⟩
  | .ref a, u, t, h, info, o, hb, hx, ht, hm => by
    simp only [DV.Is] at hx
    obtain ⟨j, rfl, hj⟩ := hx
    have : o = some j := by
      cases t with
      | sc s => cases s <;> exact ht.elim
      | obj => simp only [DTy.ty, UV.toTV, TV.mar, Leaf.marshal, Option.some.injEq] at hm; exact hm.symm
      | jptr k => simp only [DTy.ty, UV.toTV, TV.mar, Leaf.marshal, Option.some.injEq] at hm; exact hm.symm
      | _ => exact ht.elim
    subst this
    exact ⟨0, some a, h, fun f _ => by simp only [DV.marD], List.prefix_refl _, a, rfl, hj⟩
  | .seq xs sp, u, t, h, info, o, hb, hx, ht, hm => by
    simp only [DV.Is] at hx
    obtain ⟨us, ss, rfl, h1, h2⟩ := hx
    simp only [UV.HasTy] at ht
    obtain ⟨t', ht, hts, _⟩ := ht
    obtain ⟨t2, rfl⟩ : ∃ t2, t = .slice t2 := by
      cases t with
      | slice t2 => exact ⟨t2, rfl⟩
      | sc s => cases s <;> cases ht
      | _ => cases ht
    cases ht
    simp only [UV.toTV, DTy.ty, Ty.elem, TV.mar] at hm
    have hemp : (UV.toTVs D.env.defs us t2.ty).isEmpty = xs.isEmpty := by
      cases xs with
      | nil => simp only [DV.Iss] at h1; subst h1; rfl
      | cons y ys => obtain ⟨u, r, rfl, _⟩ := h1; rfl
    rw [hemp] at hm
    split at hm
    · rename_i hc
      cases hm
      exact ⟨0, none, h, fun f _ => by simp only [DV.marD]; rw [if_pos hc], List.prefix_refl _, rfl⟩
    · rename_i hc
      split at hm
      · cases hm
      · rename_i ys hys
        cases hm
        obtain ⟨f0, rs, h', k1, k2, k3⟩ := marsD_is xs us t2 h ys hb h1 hts hys
        obtain ⟨f1, r, h'', k4, k5, k6⟩ := boxD_is (info := info) (o := .arr rs) (h := h') (j := .arr ys)
          ⟨trivial, rs, alloc_get h' _, Ats_keep ys rs k3 fun _ _ _ hx => At_prefix (alloc_prefix h' _) hx⟩
        refine ⟨max f0 f1, r, h'', fun f hf => ?_, k2.trans k5, k6⟩
        simp only [DV.marD, DTy.elem]
        rw [if_neg hc, k1 f (by omega)]
        exact k4 f (by omega)
  | .map m, u, t, h, info, o, hb, hx, ht, hm => by
    simp only [DV.Is] at hx
    obtain ⟨us, rfl, h1⟩ := hx
    simp only [UV.HasTy] at ht
    obtain ⟨_, t', ht, hts⟩ := ht
    obtain ⟨t2, rfl, rfl⟩ : ∃ t2, t = .map t2 ∧ t' = t2.ty := by
      cases t with
      | map t2 => exact ⟨t2, rfl, by rcases ht with ht | ht <;> cases ht; rfl⟩
      | sc s => cases s <;> rcases ht with ht | ht <;> cases ht
      | _ => rcases ht with ht | ht <;> cases ht
    simp only [UV.toTV, DTy.ty, Ty.elem, TV.mar] at hm
    have hemp : (UV.toTVm D.env.defs us t2.ty).isEmpty = m.isEmpty := by
      cases m with
      | nil => simp only [DV.Ism] at h1; subst h1; rfl
      | cons y ys => obtain ⟨u, r, rfl, _⟩ := h1; rfl
    rw [hemp] at hm
    split at hm
    · rename_i hc
      cases hm
      exact ⟨0, none, h, fun f _ => by simp only [DV.marD]; rw [if_pos hc], List.prefix_refl _, rfl⟩
    · rename_i hc
      split at hm
      · cases hm
      · rename_i ys hys
        cases hm
        obtain ⟨f0, rs, h', k1, k2, k3⟩ := marmD_is m us t2 h ys hb h1 hts hys
        obtain ⟨f1, r, h'', k4, k5, k6⟩ := boxD_is (info := info) (o := .dict 0 (pairsDict rs)) (h := h') (j := .dict 0 (pairsDict ys))
          ⟨trivial, _, alloc_get h' _, Atf_keep _ _ (Atf_pairsDict k3) fun _ _ _ _ hx => At_prefix (alloc_prefix h' _) hx⟩
        refine ⟨max f0 f1, r, h'', fun f hf => ?_, k2.trans k5, k6⟩
        simp only [DV.marD, DTy.elem]
        rw [if_neg hc, k1 f (by omega)]
        exact k4 f (by omega)
  | .struct vs, u, t, h, info, o, hb, hx, ht, hm => by
    simp only [DV.Is] at hx
    obtain ⟨us, rfl, h1⟩ := hx
    simp only [UV.HasTy] at ht
    obtain ⟨n, fs, ht, hd, hfs⟩ := ht
    have e1 : fs = (D.fields t).map fun e => (e.1, e.2.ty) := by
      rw [← fields_env, ht]; simp only [Ty.fields, List.getD_eq_getElem?_getD, hd, Option.getD_some]
    have e2 : (u : UV) → True := fun _ => trivial
    simp only [UV.toTV, TV.mar, fields_env] at hm
    rw [e1] at hfs
    split at hm
    · cases hm
    · rename_i ps dep hps
      obtain ⟨f0, rs, h', k1, k2, k3⟩ := marfD_is vs us (D.fields t) h ps dep hb h1 hfs hps
      simp only [structJ] at hm
      rcases Atf_depPairs (dep := dep) (n := dep.length + 1) k3 (ord dep) with ⟨q1, _⟩ | ⟨dps, drs, q1, q2, q3⟩
      · rw [q1] at hm; cases hm
      · rw [q1] at hm
        simp only at hm
        have hemp := Atf_isEmpty (Atf_append k3 q3)
        split at hm
        · rename_i hc
          cases hm
          refine ⟨f0, none, h', fun f hf => ?_, k2, rfl⟩
          simp only [DV.marD, k1 f hf, structD, q2]
          rw [if_pos (by rw [hemp]; exact hc)]
        · rename_i hc
          cases hm
          obtain ⟨f1, r, h'', k4, k5, k6⟩ := boxD_is (info := info) (o := .dict 0 (pairsDict (rs ++ drs))) (h := h') (j := .dict 0 (pairsDict (ps ++ dps)))
            ⟨trivial, _, alloc_get h' _, Atf_keep _ _ (Atf_pairsDict (Atf_append k3 q3)) fun _ _ _ _ hx => At_prefix (alloc_prefix h' _) hx⟩
          refine ⟨max f0 f1, r, h'', fun f hf => ?_, k2.trans k5, k6⟩
          simp only [DV.marD, k1 f (by omega), structD, q2]
          rw [if_neg (by rw [hemp]; exact hc)]
          exact k4 f (by omega)
  | .ptr x, u, t, h, info, o, hb, hx, ht, hm => by
    simp only [DV.Is] at hx
    obtain ⟨w, rfl, h1⟩ := hx
    simp only [UV.HasTy] at ht
    obtain ⟨t', ht, hw⟩ := ht
    obtain ⟨t2, rfl⟩ : ∃ t2, t = .ptr t2 := by
      cases t with
      | ptr t2 => exact ⟨t2, rfl⟩
      | sc s => cases s <;> cases ht
      | _ => cases ht
    cases ht
    simp only [UV.toTV, DTy.ty, Ty.elem, TV.mar] at hm
    simp only [DV.marD, DTy.elem]
    exact marD_is x w t2 h info o hb h1 hw hm
theorem marsD_is : ∀ (xs : List DV) (us : List UV) (t : DTy) (h : Heap) (ys : List J), Heap.base <+: h → DV.Iss h xs us → UV.HasTys D.env.defs us t.ty →
    TV.mars ord oe (UV.toTVs D.env.defs us t.ty) = some ys →
    ∃ f0 rs h', (∀ f, f0 ≤ f → DV.marsD ord oe D f xs t h = .ok (rs, h')) ∧ h <+: h' ∧ J.Ats h' (fun _ => True) ys rs
  | [], us, t, h, ys, hb, hx, ht, hm => by
    simp only [DV.Iss] at hx
    subst hx
    simp only [UV.toTVs, TV.mars] at hm
    cases hm
    exact ⟨0, [], h, fun f _ => by simp only [DV.marsD], List.prefix_refl _, rfl⟩
  | x :: xs, us, t, h, ys, hb, hx, ht, hm => by
    obtain ⟨u, r, rfl, h1, h2⟩ := hx
    obtain ⟨ht1, ht2⟩ := ht
    simp only [UV.toTVs, TV.mars] at hm
    split at hm
    · cases hm
    · rename_i o ho
      split at hm
      · cases hm
      · rename_i zs hzs
        obtain ⟨f0, r1, h', k1, k2, k3⟩ := marD_is x u t h none o hb h1 ht1 ho
        obtain ⟨f1, rs, h'', k4, k5, k6⟩ := marsD_is xs r t h' zs (hb.trans k2) (Iss_mono k2 xs r h2) ht2 hzs
        refine ⟨max f0 f1, _, h'', fun f hf => by simp only [DV.marsD, k1 f (by omega), k4 f (by omega)]; rfl, k2.trans k5, ?_⟩
        cases o with
        | none => cases hm; cases k3; exact k6
        | some y => cases hm; obtain ⟨a, rfl, ha⟩ := k3; exact ⟨a, rs, rfl, At_prefix k5 ha, k6⟩
theorem marmD_is : ∀ (xs : List (Bytes × DV)) (us : List (Bytes × UV)) (t : DTy) (h : Heap) (ys : List (Bytes × J)), Heap.base <+: h → DV.Ism h xs us → UV.HasTym D.env.defs us t.ty →
    TV.marm ord oe (UV.toTVm D.env.defs us t.ty) = some ys →
    ∃ f0 rs h', (∀ f, f0 ≤ f → DV.marmD ord oe D f xs t h = .ok (rs, h')) ∧ h <+: h' ∧ J.Atf h' (fun _ => True) ys rs
  | [], us, t, h, ys, hb, hx, ht, hm => by
    simp only [DV.Ism] at hx
    subst hx
    simp only [UV.toTVm, TV.marm] at hm
    cases hm
    exact ⟨0, [], h, fun f _ => by simp only [DV.marmD], List.prefix_refl _, rfl⟩
  | (k, x) :: xs, us, t, h, ys, hb, hx, ht, hm => by
    obtain ⟨u, r, rfl, h1, h2⟩ := hx
    obtain ⟨ht1, ht2⟩ := ht
    simp only [UV.toTVm, TV.marm] at hm
    split at hm
    · cases hm
    · rename_i o ho
      split at hm
      · cases hm
      · rename_i zs hzs
        obtain ⟨f0, r1, h', k1, k2, k3⟩ := marD_is x u t h none o hb h1 ht1 ho
        obtain ⟨f1, rs, h'', k4, k5, k6⟩ := marmD_is xs r t h' zs (hb.trans k2) (Ism_mono k2 xs r h2) ht2 hzs
        refine ⟨max f0 f1, _, h'', fun f hf => by simp only [DV.marmD, k1 f (by omega), k4 f (by omega)]; rfl, k2.trans k5, ?_⟩
        cases o with
        | none => cases hm; cases k3; exact k6
        | some y => cases hm; obtain ⟨a, rfl, ha⟩ := k3; exact ⟨a, rs, rfl, At_prefix k5 ha, k6⟩
theorem marfD_is : ∀ (xs : List DV) (us : List UV) (fs : List (FInfo × DTy)) (h : Heap) (ps : List (Bytes × J)) (dep : SMap Bytes), Heap.base <+: h → DV.Iss h xs us →
    UV.HasTyf D.env.defs us (fs.map fun e => (e.1, e.2.ty)) → TV.marf ord oe (UV.toTVf D.env.defs us (fs.map fun e => (e.1, e.2.ty))) = some (ps, dep) →
    ∃ f0 rs h', (∀ f, f0 ≤ f → DV.marfD ord oe D f xs fs h = .ok ((rs, dep), h')) ∧ h <+: h' ∧ J.Atf h' (fun _ => True) ps rs
  | [], us, fs, h, ps, dep, hb, hx, ht, hm => by
    simp only [DV.Iss] at hx
    subst hx
    simp only [UV.toTVf, TV.marf] at hm
    cases hm
    exact ⟨0, [], h, fun f _ => by simp only [DV.marfD], List.prefix_refl _, rfl⟩
  | x :: xs, us, [], h, ps, dep, hb, hx, ht, hm => by
    obtain ⟨u, r, rfl, h1, h2⟩ := hx
    simp only [List.map_nil, UV.toTVf, TV.marf] at hm
    cases hm
    exact ⟨0, [], h, fun f _ => by simp only [DV.marfD], List.prefix_refl _, rfl⟩
  | x :: xs, us, (i, t) :: fs, h, ps, dep, hb, hx, ht, hm => by
    obtain ⟨u, r, rfl, h1, h2⟩ := hx
    simp only [UV.HasTyf, List.map_cons, List.cons.injEq, Prod.mk.injEq] at ht
    obtain ⟨_, _, _, ⟨⟨rfl, rfl⟩, rfl⟩, ht1, ht2⟩ := ht
    simp only [List.map_cons, UV.toTVf, TV.marf] at hm
    simp only [DV.marfD]
    split at hm
    · rename_i hi
      simp only [hi, if_true]
      exact marfD_is xs r fs h ps dep hb h2 ht2 hm
    · rename_i hi
      simp only [hi, Bool.false_eq_true, if_false]
      cases hdep : i.deprecatedBy with
      | some k =>
        rw [hdep] at hm
        simp only at hm ⊢
        split at hm
        · cases hm
        · rename_i ps1 dep1 hrec
          cases hm
          obtain ⟨f1, rs, h'', k4, k5, k6⟩ := marfD_is xs r fs h _ _ hb h2 ht2 hrec
          refine ⟨f1, rs, h'', fun f hf => ?_, k5, k6⟩
          simp only [k4 f hf]
          cases smGet dep1 i.name <;> rfl
      | none =>
        rw [hdep] at hm
        simp only at hm ⊢
        split at hm
        · cases hm
        · rename_i o ho
          split at hm
          · cases hm
          · rename_i ps1 dep1 hzs
            obtain ⟨f0, r1, h', k1, k2, k3⟩ := marD_is x u t h (some i) o hb h1 ht1 ho
            obtain ⟨f1, rs, h'', k4, k5, k6⟩ := marfD_is xs r fs h' _ _ (hb.trans k2) (Iss_mono k2 xs r h2) ht2 hzs
            refine ⟨max f0 f1, if r1.isSome then (i.name, r1) :: rs else rs, h'', fun f hf => ?_, k2.trans k5, ?_⟩
            · simp only [k1 f (by omega), k4 f (by omega)]
              cases o <;> cases hm <;> rfl
            · cases o with
              | none => cases hm; cases k3; exact k6
              | some y => cases hm; obtain ⟨a, rfl, ha⟩ := k3; exact ⟨a, rs, rfl, At_prefix k5 ha, k6⟩
end

end Jsonutils
