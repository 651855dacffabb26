import Verif.Proofs.LiveMir

/-! # A dictionary with a node id has a reference inside -/

namespace Jsonutils

mutual
/-- Every dictionary whose pointer is in `T` has a reference inside. -/
def MJ.Anch (T : Nat → Prop) : MJ → Prop
  | .arr xs => MJ.Anchs T xs
  | .dict ms kvs => (∀ id ∈ ms, T id → MJ.refsf kvs ≠ []) ∧ MJ.Anchf T kvs
  | _ => True
def MJ.Anchs (T : Nat → Prop) : List MJ → Prop
  | [] => True
  | x :: xs => x.Anch T ∧ MJ.Anchs T xs
def MJ.Anchf (T : Nat → Prop) : List (Bytes × MJ) → Prop
  | [] => True
  | (_, x) :: xs => x.Anch T ∧ MJ.Anchf T xs
end

mutual
theorem anch_mono {T T' : Nat → Prop} : ∀ (m : MJ), (∀ id ∈ m.marks, T' id → T id) → m.Anch T → m.Anch T'
  | .json _, _, _ => trivial
  | .ref _, _, _ => trivial
  | .arr xs, ht, ha => by
    rw [MJ.Anch] at ha ⊢
    exact anchs_mono xs (by simpa only [MJ.marks] using ht) ha
  | .dict ms kvs, ht, ha => by
    rw [MJ.Anch] at ha ⊢
    simp only [MJ.marks, List.mem_append] at ht
    exact ⟨fun id hid h => ha.1 id hid (ht id (.inr hid) h), anchf_mono kvs (fun id hid => ht id (.inl hid)) ha.2⟩
theorem anchs_mono {T T' : Nat → Prop} : ∀ (m : List MJ), (∀ id ∈ MJ.markss m, T' id → T id) → MJ.Anchs T m → MJ.Anchs T' m
  | [], _, _ => trivial
  | x :: xs, ht, ha => by
    rw [MJ.Anchs] at ha ⊢
    simp only [MJ.markss, List.mem_append] at ht
    exact ⟨anch_mono x (fun id hid => ht id (.inl hid)) ha.1, anchs_mono xs (fun id hid => ht id (.inr hid)) ha.2⟩
theorem anchf_mono {T T' : Nat → Prop} : ∀ (m : List (Bytes × MJ)), (∀ id ∈ MJ.marksf m, T' id → T id) → MJ.Anchf T m → MJ.Anchf T' m
  | [], _, _ => trivial
  | (_, x) :: xs, ht, ha => by
    rw [MJ.Anchf] at ha ⊢
    simp only [MJ.marksf, List.mem_append] at ht
    exact ⟨anch_mono x (fun id hid => ht id (.inl hid)) ha.1, anchf_mono xs (fun id hid => ht id (.inr hid)) ha.2⟩
end

theorem anchf_all {T : Nat → Prop} (kvs : List (Bytes × MJ)) : MJ.Anchf T kvs ↔ ∀ p ∈ kvs, p.2.Anch T := by
  induction kvs with
  | nil => simp [MJ.Anchf]
  | cons x xs ih => obtain ⟨k, x⟩ := x; simp [MJ.Anchf, ih]

/-- On the trace. -/
def MSess.On (s : MSess) (id : Nat) : Prop := id ∈ s.trace.map (·.id)

theorem bumped_ids {a b : List TEntry} (h : Bumped a b) : b.map (·.id) = a.map (·.id) := by
  induction h with
  | nil => rfl
  | cons h1 _ _ ih => simp [h1, ih]

/-- Nothing returns to the trace. -/
theorem MInv.on {s s' : MSess} {r m : List Nat} (h : MInv s s' r m) {id : Nat} (hid : id ≤ s.nodeIndex) (ho : s'.On id) : s.On id := by
  obtain ⟨old, new, h1, h2, h3, _⟩ := h.tr
  unfold MSess.On at ho ⊢
  rw [h1, List.map_append, List.mem_append] at ho
  rcases ho with ho | ho
  · rw [bumped_ids h2] at ho; exact ho
  · obtain ⟨e, he, rfl⟩ := List.mem_map.1 ho
    have := (h.range _ (h3 e he).2).1
    omega

def AnchO (s : MSess) : Option MJ → Prop
  | none => True
  | some m => m.Anch s.On

theorem AnchO.later {s s' : MSess} {s0 : MSess} {o : Option MJ} {r m : List Nat} (hr : MRes s0 s o) (h : MInv s s' r m) (ha : AnchO s o) : AnchO s' o := by
  cases o with
  | none => trivial
  | some x => exact anch_mono x (fun id hid hon => h.on (hr.inv.range id hid).2 hon) ha

section
variable {ord : SMap Bytes → List (Bytes × Bytes)} {oe : Bool} {h : List GV} {d : MSess → Option FInfo → Nat → Option (MSess × Option MJ)}

def DAnch (d : MSess → Option FInfo → Nat → Option (MSess × Option MJ)) : Prop :=
  ∀ s info a s' o, s.Good → s.Ord → optForce info = false → d s info a = some (s', o) → AnchO s' o

theorem ptr_anch {a : Nat} {s s' : MSess} {o : Option MJ} (hg : s.Good) (ho : s.Ord) {info : Option FInfo} (hf : optForce info = false)
    (hd : DRes h d) (hda : DAnch d) (hclean : ∀ g, h[a]? = some g → g.DictLike) (hdang : ∀ s info r, d s info a = some r → ∃ g, h[a]? = some g)
    (hr : marshalPtr a s (fun s1 => d s1 info a) = some (s', o)) : AnchO s' o := by
  unfold marshalPtr at hr
  cases ht : traceFind a none s.trace with
  | mk found t =>
    rw [ht] at hr
    cases found with
    | some id => simp only at hr; cases hr; trivial
    | none =>
      have hmiss := traceFind_none a s.trace (by rw [ht])
      have htt : t = s.trace := by
        have := traceFind_miss (a := a) s.trace (fun e he hea => traceFind_none a s.trace (by rw [ht]) (List.mem_map.2 ⟨e, he, hea⟩))
        rw [ht] at this; cases this; rfl
      subst htt
      simp only at hr
      cases hb2 : d ⟨s.nodeIndex + 1, s.trace ++ [⟨s.nodeIndex + 1, a, 1⟩]⟩ info a with
      | none => rw [hb2] at hr; cases hr
      | some r =>
        obtain ⟨s2, o2⟩ := r
        rw [hb2] at hr
        simp only at hr
        cases hr
        have hg0 : MSess.Good ⟨s.nodeIndex + 1, s.trace ++ [⟨s.nodeIndex + 1, a, 1⟩]⟩ := by
          intro e he
          simp only [List.mem_append, List.mem_singleton] at he
          rcases he with he | rfl
          · exact hg e he
          · exact Nat.le_refl _
        have ho0 : MSess.Ord ⟨s.nodeIndex + 1, s.trace ++ [⟨s.nodeIndex + 1, a, 1⟩]⟩ := by
          refine ⟨?_, ?_, ?_⟩
          · simp only [List.map_append, List.map_cons, List.map_nil, List.pairwise_append]
            exact ⟨ho.ids, by simp, fun x hx y hy => by have := ho.le x hx; simp only [List.mem_singleton] at hy; omega⟩
          · intro id hid
            simp only [List.map_append, List.map_cons, List.map_nil, List.mem_append, List.mem_singleton] at hid
            rcases hid with hid | rfl
            · exact Nat.le_succ_of_le (ho.le id hid)
            · exact Nat.le_refl _
          · simp only [List.map_append, List.map_cons, List.map_nil, List.nodup_append]
            refine ⟨ho.infs, by simp, fun x hx y hy hxy => ?_⟩
            simp only [List.mem_singleton] at hy
            exact hmiss (by rw [← hy, ← hxy]; exact hx)
        obtain ⟨⟨hinv, hnone, hsing⟩, hmk⟩ := hd _ _ _ _ _ hg0 hf hb2
        have hanch := hda _ _ _ _ _ hg0 ho0 hf hb2
        obtain ⟨g, hga⟩ := hdang _ _ _ hb2
        have hsub : ∀ id, MSess.On ⟨s2.nodeIndex, tracePop s2.trace⟩ id → s2.On id := fun id hid => ((tracePop_sub s2.trace).map _).subset hid
        rcases hmk g hga (hclean g hga) with rfl | ⟨hsame, j, rfl⟩ | ⟨kvs, rfl⟩
        · trivial
        · trivial
        · simp only [Option.map_some, MJ.mark, List.nil_append, AnchO, MJ.Anch]
          simp only [AnchO, MJ.Anch] at hanch
          refine ⟨?_, anchf_mono kvs (fun id _ => hsub id) hanch.2⟩
          intro id hid hon hrefs
          simp only [List.mem_singleton] at hid
          subst hid
          obtain ⟨old, new, e1, b1, x1, l1⟩ := hinv.tr
          have hrange := hinv.range
          simp only [refsO, MJ.refs, marksO, MJ.marks, List.append_nil, hrefs] at hinv x1 hrange
          obtain ⟨ho2, hext⟩ := hinv.ext ho0
          -- no count has become 2
          have hcount : ∀ e ∈ s2.trace, s.nodeIndex < e.id → e.refcnt < 2 := by
            intro e he hlt
            refine Nat.lt_of_not_le fun h2 => ?_
            rcases hext e he h2 with ⟨e0, p1, p2, p3⟩ | ⟨i, p1, _⟩
            · simp only [List.mem_append, List.mem_singleton] at p1
              rcases p1 with p1 | rfl
              · have := ho.le e0.id (List.mem_map.2 ⟨e0, p1, rfl⟩); omega
              · simp at p3
            · cases p1
          have hnew : new = [] := by
            cases hl : new.getLast? with
            | none => simpa using hl
            | some e =>
              have hmem : e ∈ new := List.mem_of_getLast? hl
              have h2 := l1 e hl
              have hr := hrange _ (x1 e hmem).2
              have := hcount e (by rw [e1]; exact List.mem_append_right _ hmem) (by omega)
              omega
          subst hnew
          rw [List.append_nil] at e1
          obtain ⟨old1, q2, rfl, c1, c2⟩ := b1.split
          cases c2 with
          | cons eid erc cnil =>
            cases cnil
            rename_i e'
            simp only at eid erc
            have hrc : e'.refcnt = 1 := by
              have := hcount e' (by rw [e1]; simp) (by omega)
              omega
            have hpop : tracePop s2.trace = old1 := by
              rw [e1]
              simp [tracePop, hrc]
            unfold MSess.On at hon
            simp only [hpop] at hon
            rw [bumped_ids c1] at hon
            have := ho.le _ hon
            omega

mutual
theorem mar_anch (hord : ∀ dep, (ord dep).Perm dep) (hd : DRes h d) (hda : DAnch d) (hdang : ∀ s info a r, d s info a = some r → ∃ g, h[a]? = some g) :
    ∀ (g : GV) (s : MSess) (info : Option FInfo) (s' : MSess) (o : Option MJ), g.Clean h → s.Good → s.Ord → optForce info = false →
      GV.mar ord oe d g s info = some (s', o) → AnchO s' o
  | .leaf l, s, info, s', o, hc, hg, ho, hf, hr => by
    simp only [GV.mar] at hr
    cases hr
    cases l.marshal info oe <;> trivial
  | .jsonPtr j, s, info, s', o, hc, hg, ho, hf, hr => by
    simp only [GV.mar] at hr
    cases hr; trivial
  | .seq xs, s, info, s', o, hc, hg, ho, hf, hr => by
    simp only [GV.mar] at hr
    simp only [GV.Clean] at hc
    split at hr
    · cases hr; trivial
    · split at hr
      · cases hr
      · rename_i hx
        cases hr
        have := mars_anch hord hd hda hdang xs _ _ _ hc hg ho hx
        simp only [forceStr, hf, Bool.false_eq_true, if_false, AnchO, MJ.Anch]
        exact this
  | .map xs, s, info, s', o, hc, hg, ho, hf, hr => by
    simp only [GV.mar] at hr
    simp only [GV.Clean] at hc
    split at hr
    · cases hr; trivial
    · split at hr
      · cases hr
      · rename_i ys hx
        cases hr
        have := marm_anch hord hd hda hdang xs _ _ _ hc.2 hg ho hx
        simp only [forceStr, hf, Bool.false_eq_true, if_false, AnchO, MJ.Anch]
        refine ⟨by simp, ?_⟩
        rw [anchf_all] at this ⊢
        exact fun p hp => this p ((pairsDict_perm _ ((marm_keys_gv xs _ _ _ hx).nodup hc.1)).subset hp)
  | .struct fs, s, info, s', o, hc, hg, ho, hf, hr => by
    simp only [GV.mar] at hr
    simp only [GV.Clean] at hc
    cases hx : GV.marf ord oe d fs s with
    | none => rw [hx] at hr; cases hr
    | some r =>
      obtain ⟨s1, ps, dep⟩ := r
      rw [hx] at hr
      simp only at hr
      have hdep := marf_dep_gv fs _ _ _ _ hx
      rw [depMap_clean hc.2] at hdep
      subst hdep
      rw [structDict_clean hord hf] at hr
      simp only at hr
      have := marf_anch hord hd hda hdang fs _ _ _ _ hc.2 hg ho hx
      split at hr
      · cases hr; trivial
      · cases hr
        simp only [AnchO, MJ.Anch]
        refine ⟨by simp, ?_⟩
        rw [anchf_all] at this ⊢
        exact fun p hp => this p ((pairsDict_perm _ ((marf_keys_gv fs _ _ _ _ hx).nodup hc.1)).subset hp)
  | .iface x, s, info, s', o, hc, hg, ho, hf, hr => by
    simp only [GV.mar] at hr
    simp only [GV.Clean] at hc
    exact mar_anch hord hd hda hdang x s info s' o hc hg ho hf hr
  | .ptr a, s, info, s', o, hc, hg, ho, hf, hr => by
    simp only [GV.mar] at hr
    simp only [GV.Clean] at hc
    exact ptr_anch hg ho hf hd hda hc (fun s info r => hdang s info a r) hr
  | .shared a, s, info, s', o, hc, hg, ho, hf, hr => by
    simp only [GV.mar] at hr
    exact hda _ _ _ _ _ hg ho hf hr
theorem mars_anch (hord : ∀ dep, (ord dep).Perm dep) (hd : DRes h d) (hda : DAnch d) (hdang : ∀ s info a r, d s info a = some r → ∃ g, h[a]? = some g) :
    ∀ (xs : List GV) (s s' : MSess) (ys : List MJ), GV.Cleans h xs → s.Good → s.Ord → GV.mars ord oe d xs s = some (s', ys) → MJ.Anchs s'.On ys
  | [], s, s', ys, hc, hg, ho, hr => by
    simp only [GV.mars] at hr
    cases hr; trivial
  | x :: xs, s, s', ys, hc, hg, ho, hm => by
    rw [GV.Cleans] at hc
    simp only [GV.mars] at hm
    cases hx : GV.mar ord oe d x s none with
    | none => rw [hx] at hm; cases hm
    | some r =>
      obtain ⟨s1, o⟩ := r
      rw [hx] at hm
      simp only at hm
      cases hxs : GV.mars ord oe d xs s1 with
      | none => rw [hxs] at hm; cases hm
      | some r2 =>
        obtain ⟨s2, zs⟩ := r2
        rw [hxs] at hm
        simp only at hm
        have a1 := mar_refs hord hd hdang x s none s1 o hc.1 hg rfl hx
        have hg1 := a1.inv.good hg
        have ho1 := (a1.inv.ext ho).1
        have a2 := (mars_refs hord hd hdang xs s1 s2 zs hc.2 hg1 hxs).1
        have b1 := (mar_anch hord hd hda hdang x s none s1 o hc.1 hg ho rfl hx).later a1 a2
        have b2 := mars_anch hord hd hda hdang xs s1 s2 zs hc.2 hg1 ho1 hxs
        cases o with
        | none => cases hm; exact b2
        | some m => cases hm; exact ⟨b1, b2⟩
theorem marm_anch (hord : ∀ dep, (ord dep).Perm dep) (hd : DRes h d) (hda : DAnch d) (hdang : ∀ s info a r, d s info a = some r → ∃ g, h[a]? = some g) :
    ∀ (xs : List (Bytes × GV)) (s s' : MSess) (ys : List (Bytes × MJ)), GV.Cleanm h xs → s.Good → s.Ord → GV.marm ord oe d xs s = some (s', ys) → MJ.Anchf s'.On ys
  | [], s, s', ys, hc, hg, ho, hr => by
    simp only [GV.marm] at hr
    cases hr; trivial
  | (k, x) :: xs, s, s', ys, hc, hg, ho, hm => by
    rw [GV.Cleanm] at hc
    simp only [GV.marm] at hm
    cases hx : GV.mar ord oe d x s none with
    | none => rw [hx] at hm; cases hm
    | some r =>
      obtain ⟨s1, o⟩ := r
      rw [hx] at hm
      simp only at hm
      cases hxs : GV.marm ord oe d xs s1 with
      | none => rw [hxs] at hm; cases hm
      | some r2 =>
        obtain ⟨s2, zs⟩ := r2
        rw [hxs] at hm
        simp only at hm
        have a1 := mar_refs hord hd hdang x s none s1 o hc.1 hg rfl hx
        have hg1 := a1.inv.good hg
        have ho1 := (a1.inv.ext ho).1
        have a2 := (marm_refs hord hd hdang xs s1 s2 zs hc.2 hg1 hxs).inv
        have b1 := (mar_anch hord hd hda hdang x s none s1 o hc.1 hg ho rfl hx).later a1 a2
        have b2 := marm_anch hord hd hda hdang xs s1 s2 zs hc.2 hg1 ho1 hxs
        cases o with
        | none => cases hm; exact b2
        | some m => cases hm; exact ⟨b1, b2⟩
theorem marf_anch (hord : ∀ dep, (ord dep).Perm dep) (hd : DRes h d) (hda : DAnch d) (hdang : ∀ s info a r, d s info a = some r → ∃ g, h[a]? = some g) :
    ∀ (xs : List (FInfo × GV)) (s s' : MSess) (ys : List (Bytes × MJ)) (dep : SMap Bytes), GV.Cleanf h xs → s.Good → s.Ord → GV.marf ord oe d xs s = some (s', ys, dep) → MJ.Anchf s'.On ys
  | [], s, s', ys, dep, hc, hg, ho, hr => by
    simp only [GV.marf] at hr
    cases hr; trivial
  | (i, x) :: xs, s, s', ys, dep, hc, hg, ho, hm => by
    rw [GV.Cleanf] at hc
    simp only [GV.marf] at hm
    split at hm
    · exact marf_anch hord hd hda hdang xs s s' ys dep hc.2 hg ho hm
    · rename_i hi
      rcases hc.1 with hc1 | ⟨d2, d3, hcx⟩
      · exact absurd hc1 hi
      rw [d3] at hm
      simp only at hm
      cases hx : GV.mar ord oe d x s (some i) with
      | none => rw [hx] at hm; cases hm
      | some r1 =>
        obtain ⟨s1, o⟩ := r1
        rw [hx] at hm
        simp only at hm
        cases hxs : GV.marf ord oe d xs s1 with
        | none => rw [hxs] at hm; cases hm
        | some r2 =>
          obtain ⟨s2, zs, dep2⟩ := r2
          rw [hxs] at hm
          simp only at hm
          have a1 := mar_refs hord hd hdang x s (some i) s1 o hcx hg d2 hx
          have hg1 := a1.inv.good hg
          have ho1 := (a1.inv.ext ho).1
          have a2 := (marf_refs hord hd hdang xs s1 s2 zs dep2 hc.2 hg1 hxs).inv
          have b1 := (mar_anch hord hd hda hdang x s (some i) s1 o hcx hg ho d2 hx).later a1 a2
          have b2 := marf_anch hord hd hda hdang xs s1 s2 zs dep2 hc.2 hg1 ho1 hxs
          cases o with
          | none => cases hm; exact b2
          | some m => cases hm; exact ⟨b1, b2⟩
end

theorem gd_anch (hord : ∀ dep, (ord dep).Perm dep) (hh : ∀ x ∈ h, x.Clean h) : ∀ n, DAnch (gd ord oe h n) := by
  intro n
  induction n with
  | zero => intro s info a s' o _ _ _ hr; cases hr
  | succ n ih =>
    intro s info a s' o hg ho hf hr
    obtain ⟨g, hga⟩ := gd_dang _ _ _ _ _ hr
    rw [gd_succ hga] at hr
    exact mar_anch hord (gd_refs hord hh n) ih (gd_dang n) g s info s' o (hh g (List.mem_of_getElem? hga)) hg ho hf hr
end
end Jsonutils
