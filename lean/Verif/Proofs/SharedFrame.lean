import Verif.Proofs.SharedLands

/-!
# What `Unmarshal` can change in memory
-/

namespace Jsonutils

variable {D : DEnv} {S R : Addr → Prop}

/-- Memory has grown by objects without members, and of what was there only objects in `S` have changed: a text, integer or boolean into
another one. -/
structure VGrow (S : Addr → Prop) (h h' : Heap) : Prop where
  len : h.length ≤ h'.length
  keep : ∀ b o, h[b]? = some o → h'[b]? = some o ∨ S b ∧ ∃ k o', h'[b]? = some o' ∧ k.Soft ∧ o.IsKind k ∧ o'.IsKind k
  fresh : ∀ b o, h.length ≤ b → h'[b]? = some o → o.refs = []

theorem soft_refs {o : Obj} {k : JKind} (hs : k.Soft) (ho : o.IsKind k) : o.refs = [] := by
  cases o <;> first | rfl | (simp only [Obj.IsKind] at ho; subst ho; exact hs.elim)

theorem isKind_eq {o : Obj} {k k' : JKind} (h1 : o.IsKind k) (h2 : o.IsKind k') : k = k' := by
  cases o <;> simp only [Obj.IsKind] at h1 h2 <;> first | exact h1.elim | exact h1.trans h2.symm

theorem VGrow.refl (h : Heap) : VGrow S h h :=
  ⟨Nat.le_refl _, fun _ _ hb => .inl hb, fun b o hb ho => absurd (List.getElem?_eq_some_iff.1 ho).1 (Nat.not_lt.2 hb)⟩

theorem VGrow.trans {h h1 h2 : Heap} (g1 : VGrow S h h1) (g2 : VGrow S h1 h2) : VGrow S h h2 := by
  refine ⟨Nat.le_trans g1.len g2.len, fun b o hb => ?_, fun b o hl ho => ?_⟩
  · rcases g1.keep b o hb with e | ⟨s, k, o1, e1, e2, e3, e4⟩
    · exact g2.keep b o e
    · rcases g2.keep b o1 e1 with e | ⟨_, k', o2, f1, f2, f3, f4⟩
      · exact .inr ⟨s, k, o1, e, e2, e3, e4⟩
      · have := isKind_eq e4 f3
        subst this
        exact .inr ⟨s, k, o2, f1, e2, e3, f4⟩
  · by_cases hb : h1.length ≤ b
    · exact g2.fresh b o hb ho
    · have e : h1[b]? = some (h1[b]'(Nat.lt_of_not_le hb)) := List.getElem?_eq_getElem _
      have hr := g1.fresh b _ hl e
      rcases g2.keep b _ e with f | ⟨_, k, o2, f1, f2, f3, f4⟩
      · rw [ho] at f; rw [Option.some.inj f]; exact hr
      · rw [ho] at f1; rw [Option.some.inj f1]; exact soft_refs f2 f4

theorem VGrow.pushed (h : Heap) {o : Obj} (ho : o.refs = []) : VGrow S h (h ++ [o]) := by
  refine ⟨by simp, fun b o' hb => .inl (prefix_get ⟨_, rfl⟩ hb), fun b o' hl hb => ?_⟩
  rw [List.getElem?_append_right hl] at hb
  cases hc : b - h.length with
  | zero => rw [hc] at hb; simp at hb; rw [← hb]; exact ho
  | succ n => rw [hc] at hb; simp at hb

/-- `R` is closed under the references in memory. -/
def RClosed (R : Addr → Prop) (h : Heap) : Prop := ∀ a o b, R a → h[a]? = some o → some b ∈ o.refs → R b

theorem RClosed.grow {h h' : Heap} (hc : RClosed R h) (hg : VGrow S h h') : RClosed R h' := by
  intro a o b ha ho hb
  by_cases hl : h.length ≤ a
  · rw [hg.fresh a o hl ho] at hb; cases hb
  · have e : h[a]? = some (h[a]'(Nat.lt_of_not_le hl)) := List.getElem?_eq_getElem _
    rcases hg.keep a _ e with f | ⟨_, k, o2, f1, f2, f3, f4⟩
    · rw [ho] at f; rw [Option.some.inj f] at hb; exact hc a _ b ha e hb
    · rw [ho] at f1; rw [Option.some.inj f1, soft_refs f2 f4] at hb; cases hb

/-- The `*JSONxxx` variables among the variable point to objects of their type, in `S`. -/
def VSafe (D : DEnv) (S : Addr → Prop) (h : Heap) (t : DTy) (x : DV) : Prop :=
  ∀ k b, x.Var D t (.jptr k) (.ref b) → S b ∧ ∃ o, h[b]? = some o ∧ o.IsKind k

theorem VSafe.grow {h h' : Heap} {t : DTy} {x : DV} (hs : VSafe D S h t x) (hg : VGrow S h h') : VSafe D S h' t x := by
  intro k b hv
  obtain ⟨h1, o, h2, h3⟩ := hs k b hv
  refine ⟨h1, ?_⟩
  rcases hg.keep b o h2 with f | ⟨_, k', o2, f1, f2, f3, f4⟩
  · exact ⟨o, f, h3⟩
  · have := isKind_eq h3 f3
    subst this
    exact ⟨o2, f1, f4⟩

theorem vsafe_zero {h : Heap} (t t' : DTy) : VSafe D S h t (D.zero t') := fun _ b hv => absurd (Var.has hv (.ref b)) (zero_noref t' b)

theorem vsafe_nil {h : Heap} {t : DTy} : VSafe D S h t .nil := by
  intro k b hv
  cases hv
theorem vsafe_sc {h : Heap} {s : Sc} {x : DV} : VSafe D S h (.sc s) x := by intro k b hv; cases hv
theorem vsafe_obj {h : Heap} {x : DV} : VSafe D S h .obj x := by intro k b hv; cases hv
theorem vsafe_map {h : Heap} {t : DTy} {x : DV} : VSafe D S h (.map t) x := by intro k b hv; cases hv
theorem vsafe_ptr {h : Heap} {t : DTy} {x : DV} : VSafe D S h (.ptr t) (.ptr x) ↔ VSafe D S h t x :=
  ⟨fun hs k b hv => hs k b (.ptr hv), fun hs k b hv => by cases hv with | ptr hv => exact hs k b hv⟩
theorem vsafe_ref {h : Heap} {k : JKind} {b : Addr} : VSafe D S h (.jptr k) (.ref b) ↔ S b ∧ ∃ o, h[b]? = some o ∧ o.IsKind k :=
  ⟨fun hs => hs k b (.here _ _), fun hs k' b' hv => by cases hv; exact hs⟩
theorem vsafe_seq {h : Heap} {t : DTy} {xs sp : List DV} : VSafe D S h (.slice t) (.seq xs sp) ↔ ∀ x ∈ xs ++ sp, VSafe D S h t x :=
  ⟨fun hs x hx k b hv => hs k b (.elem hx hv), fun hs k b hv => by cases hv with | elem hx hv => exact hs _ hx k b hv⟩

/-- The fields of a struct. -/
def VSafeF (D : DEnv) (S : Addr → Prop) (h : Heap) (tys : List (FInfo × DTy)) (vs : List DV) : Prop :=
  ∀ (i : Nat) info t v, tys[i]? = some (info, t) → vs[i]? = some v → VSafe D S h t v

theorem vsafe_struct {h : Heap} {n : Nat} {vs : List DV} : VSafe D S h (.struct n) (.struct vs) ↔ ∀ tys, D.defs[n]? = some tys → VSafeF D S h tys vs :=
  ⟨fun hs tys hn i info t v h1 h2 k b hv => hs k b (.field hn h1 h2 hv), fun hs k b hv => by
    cases hv with | field hn h1 h2 hv => exact hs _ hn _ _ _ _ h1 h2 k b hv⟩

theorem VSafeF.grow {h h' : Heap} {tys : List (FInfo × DTy)} {vs : List DV} (hs : VSafeF D S h tys vs) (hg : VGrow S h h') : VSafeF D S h' tys vs :=
  fun i info t v h1 h2 => (hs i info t v h1 h2).grow hg

theorem VSafeF.set {h : Heap} {tys : List (FInfo × DTy)} {vs : List DV} (hs : VSafeF D S h tys vs) {i : Nat} {info : FInfo} {t : DTy} (hi : tys[i]? = some (info, t)) {v : DV}
    (hv : VSafe D S h t v) : VSafeF D S h tys (vs.set i v) := by
  intro j info' t' w h1 h2
  by_cases e : i = j
  · subst e
    rw [hi] at h1; cases h1
    rw [List.getElem?_set] at h2
    simp only [if_true] at h2
    split at h2
    · cases h2; exact hv
    · cases h2
  · rw [List.getElem?_set_ne e] at h2
    exact hs j info' t' w h1 h2

/-- What is shown of every call. -/
def VOut (D : DEnv) (S : Addr → Prop) (h : Heap) (t : DTy) (res : DOut) : Prop := ∀ x e h', res = .ok ((x, e), h') → VGrow S h h' ∧ VSafe D S h' t x

theorem out_ok {h h' : Heap} {t : DTy} {x : DV} {e : Option UErr} (hg : VGrow S h h') (hs : VSafe D S h' t x) : VOut D S h t (.ok ((x, e), h')) := by
  intro x' e' h2 he; cases he; exact ⟨hg, hs⟩

theorem VOut.after {h h1 : Heap} {t : DTy} {res : DOut} (hg : VGrow S h h1) (ho : VOut D S h1 t res) : VOut D S h t res :=
  fun x e h' he => ⟨hg.trans (ho x e h' he).1, (ho x e h' he).2⟩

theorem VOut.ptr {h : Heap} {t : DTy} {res : DOut} (ho : VOut D S h t res) : VOut D S h (.ptr t) (dptr res) := by
  intro x e h' he
  cases res with
  | ok p =>
    obtain ⟨⟨y, e1⟩, h1⟩ := p
    cases he
    exact ⟨(ho y e1 h1 rfl).1, vsafe_ptr.2 (ho y e1 h1 rfl).2⟩
  | panic => cases he
  | fuel => cases he

theorem zeroObj_kind (k : JKind) : k.zeroObj.IsKind k := by cases k <;> rfl
theorem zeroObj_refs (k : JKind) : k.zeroObj.refs = [] := by cases k <;> rfl

theorem alloc_safe : ∀ (t : DTy) (h : Heap) (x : DV), (∀ b, h.length ≤ b → S b) → VSafe D S h t x →
    h <+: (D.alloc t h x).2 ∧ VGrow S h (D.alloc t h x).2 ∧ VSafe D S (D.alloc t h x).2 t (D.alloc t h x).1
  | .ptr t, h, x, hf, hs => by
    have main : ∀ y, VSafe D S h t y → h <+: (D.alloc t h y).2 ∧ VGrow S h (D.alloc t h y).2 ∧ VSafe D S (D.alloc t h y).2 (.ptr t) (.ptr (D.alloc t h y).1) :=
      fun y hy => have := alloc_safe t h y hf hy; ⟨this.1, this.2.1, vsafe_ptr.2 this.2.2⟩
    cases x with
    | ptr y => exact main y (vsafe_ptr.1 hs)
    | _ => exact main _ (vsafe_zero t t)
  | .jptr k, h, x, hf, hs => by
    cases x with
    | nil =>
      refine ⟨⟨_, rfl⟩, VGrow.pushed h (zeroObj_refs k), vsafe_ref.2 ⟨hf _ (Nat.le_refl _), k.zeroObj, ?_, zeroObj_kind k⟩⟩
      simp [Heap.alloc, DEnv.alloc]
    | _ => exact ⟨List.prefix_refl _, .refl h, hs⟩
  | .sc s, h, x, hf, hs => ⟨List.prefix_refl _, .refl h, hs⟩
  | .obj, h, x, hf, hs => ⟨List.prefix_refl _, .refl h, hs⟩
  | .slice t, h, x, hf, hs => ⟨List.prefix_refl _, .refl h, hs⟩
  | .map t, h, x, hf, hs => ⟨List.prefix_refl _, .refl h, hs⟩
  | .struct n, h, x, hf, hs => ⟨List.prefix_refl _, .refl h, hs⟩

theorem convert_same {tr : GoFloat → Int} {o : Obj} {k : JKind} (h : convert tr o k = .same) : o.IsKind k := by
  cases o <;> cases k <;> first | rfl | cases h

theorem convert_write {tr : GoFloat → Int} {o o' : Obj} {k : JKind} (h : convert tr o k = .write o') : k.Soft ∧ o'.IsKind k := by
  cases o <;> cases k <;> first | (cases h; done) | (cases h; exact ⟨trivial, rfl⟩)

theorem putPtr_out {a : Addr} {o : Obj} {k : JKind} {h : Heap} {v : DV} (ha : h[a]? = some o) (hS : S a) (hs : VSafe D S h (.jptr k) v) :
    VOut D S h (.jptr k) (putPtr D a o k h v) := by
  unfold putPtr
  split
  · rename_i hc
    exact out_ok (.refl h) (vsafe_ref.2 ⟨hS, o, ha, convert_same hc⟩)
  · exact out_ok (.refl h) hs
  · rename_i o' hc
    obtain ⟨h1, h2⟩ := convert_write hc
    split
    · rename_i b
      obtain ⟨hb, ob, ho, hk⟩ := vsafe_ref.1 hs
      have hg : VGrow S h (h.set b o') := by
        refine ⟨by simp, fun c oc hc' => ?_, fun c oc hl hc' => ?_⟩
        · by_cases e : b = c
          · subst e
            rw [ho] at hc'; cases hc'
            exact .inr ⟨hb, k, o', by rw [List.getElem?_set_self (List.getElem?_eq_some_iff.1 ho).1], h1, hk, h2⟩
          · left; rw [List.getElem?_set_ne e]; exact hc'
        · have := (List.getElem?_eq_some_iff.1 hc').1
          rw [List.length_set] at this
          exact absurd this (Nat.not_lt.2 hl)
      exact out_ok hg (hs.grow hg)
    · exact out_ok (.refl h) hs

theorem vsafe_backing {h : Heap} {t : DTy} {v : DV} (hs : VSafe D S h (.slice t) v) : ∀ x ∈ v.backing, VSafe D S h t x := by
  cases v with
  | seq xs sp => exact vsafe_seq.1 hs
  | _ => intro x hx; cases hx

theorem putScalar_out {a : Addr} {o : Obj} (hS : S a) : ∀ (t : DTy) (h : Heap) (v : DV), (∀ b, h.length ≤ b → S b) → h[a]? = some o → VSafe D S h t v →
    VOut D S h t (putScalar D a o t h v)
  | .sc s, h, v, hf, ha, hs => by
    simp only [putScalar]
    split
    · intro x e h' he; cases he
    · exact out_ok (.refl h) vsafe_sc
  | .obj, h, v, hf, ha, hs => out_ok (.refl h) vsafe_obj
  | .jptr k, h, v, hf, ha, hs => putPtr_out ha hS hs
  | .ptr t, h, v, hf, ha, hs => by
    cases v with
    | ptr y => exact (putScalar_out hS t h y hf ha (vsafe_ptr.1 hs)).ptr
    | _ => exact out_ok (.refl h) hs
  | .map t, h, v, hf, ha, hs => out_ok (.refl h) vsafe_map
  | .struct n, h, v, hf, ha, hs => out_ok (.refl h) hs
  | .slice t, h, v, hf, ha, hs => by
    cases o with
    | str s =>
      have hb := vsafe_backing hs
      have hhd : VSafe D S h t (v.backing.headD (D.zero t)) := by
        cases he : v.backing with
        | nil => exact vsafe_zero t t
        | cons y ys => exact hb y (by rw [he]; exact List.mem_cons_self ..)
      obtain ⟨g1, g2, g3⟩ := alloc_safe t h _ hf hhd
      have ho := putScalar_out hS t _ _ (fun b hb => hf b (Nat.le_trans g2.len hb)) (prefix_get g1 ha) g3
      intro x e h' he
      simp only [putScalar] at he
      cases hr : putScalar D a (.str s) t (D.alloc t h (v.backing.headD (D.zero t))).2 (D.alloc t h (v.backing.headD (D.zero t))).1 with
      | ok p =>
        obtain ⟨⟨y, e1⟩, h1⟩ := p
        rw [hr] at he
        cases he
        obtain ⟨k1, k2⟩ := ho y e1 h1 hr
        refine ⟨g2.trans k1, vsafe_seq.2 fun z hz => ?_⟩
        rcases List.mem_append.1 hz with hz | hz
        · rw [List.mem_singleton] at hz; subst hz; exact k2
        · exact (hb z (List.mem_of_mem_tail hz)).grow (g2.trans k1)
      | panic => rw [hr] at he; cases he
      | fuel => rw [hr] at he; cases he
    | _ => exact out_ok (.refl h) hs

/-- The calls for the members. -/
def VOutG (D : DEnv) (S R : Addr → Prop) (g : DTy → Heap → Ref → DV → DOut) : Prop :=
  ∀ t h r v, (∀ b, h.length ≤ b → S b) → RClosed R h → (∀ a, r = some a → R a) → VSafe D S h t v → VOut D S h t (g t h r v)

theorem elems_out {g : DTy → Heap → Ref → DV → DOut} (hg : VOutG D S R g) (t : DTy) : ∀ (rs : List Ref) (h : Heap) (vs : List DV) (vs' : List DV) (e : Option UErr) (h' : Heap),
    (∀ b, h.length ≤ b → S b) → RClosed R h → (∀ a, some a ∈ rs → R a) → (∀ v ∈ vs, VSafe D S h t v) → elemsD (g t) h rs vs = .ok ((vs', e), h') →
    VGrow S h h' ∧ ∀ v ∈ vs', VSafe D S h' t v
  | [], h, vs, vs', e, h', hf, hc, hr, hv, he => by simp only [elemsD] at he; cases he; exact ⟨.refl h, hv⟩
  | r :: rs, h, [], vs', e, h', hf, hc, hr, hv, he => by simp only [elemsD] at he; cases he
  | r :: rs, h, v :: vs, vs', e, h', hf, hc, hr, hv, he => by
    simp only [elemsD] at he
    have ho := hg t h r v hf hc (fun a ha => hr a (by rw [ha]; exact List.mem_cons_self ..)) (hv v (List.mem_cons_self ..))
    split at he
    · rename_i v1 e1 h1 hg1
      cases he
      obtain ⟨k1, k2⟩ := ho _ _ _ hg1
      refine ⟨k1, fun w hw => ?_⟩
      rcases List.mem_cons.1 hw with rfl | hw
      · exact k2
      · exact (hv w (List.mem_cons_of_mem _ hw)).grow k1
    · rename_i v1 h1 hg1
      obtain ⟨k1, k2⟩ := ho _ _ _ hg1
      cases hr2 : elemsD (g t) h1 rs vs with
      | ok p =>
        obtain ⟨⟨vs2, e2⟩, h2⟩ := p
        rw [hr2] at he
        cases he
        obtain ⟨m1, m2⟩ := elems_out hg t rs h1 vs vs2 e2 h2 (fun b hb => hf b (Nat.le_trans k1.len hb)) (hc.grow k1) (fun a ha => hr a (List.mem_cons_of_mem _ ha))
          (fun w hw => (hv w (List.mem_cons_of_mem _ hw)).grow k1) hr2
        refine ⟨k1.trans m1, fun w hw => ?_⟩
        rcases List.mem_cons.1 hw with rfl | hw
        · exact k2.grow m1
        · exact m2 w hw
      | panic => rw [hr2] at he; cases he
      | fuel => rw [hr2] at he; cases he
    · cases he
    · cases he

theorem entries_out {g : DTy → Heap → Ref → DV → DOut} (hg : VOutG D S R g) (t : DTy) : ∀ (rs : SMap Ref) (h : Heap) (m m' : SMap DV) (e : Option UErr) (h' : Heap),
    (∀ b, h.length ≤ b → S b) → RClosed R h → (∀ k a, (k, some a) ∈ rs → R a) → entriesD (fun h r => g t h r (D.zero t)) h rs m = .ok ((m', e), h') → VGrow S h h'
  | [], h, m, m', e, h', hf, hc, hr, he => by simp only [entriesD] at he; cases he; exact .refl h
  | (k, r) :: rs, h, m, m', e, h', hf, hc, hr, he => by
    simp only [entriesD] at he
    have ho := hg t h r (D.zero t) hf hc (fun a ha => hr k a (by rw [ha]; exact List.mem_cons_self ..)) (vsafe_zero t t)
    split at he
    · rename_i v1 e1 h1 hg1
      cases he
      exact (ho _ _ _ hg1).1
    · rename_i v1 h1 hg1
      obtain ⟨k1, k2⟩ := ho _ _ _ hg1
      exact k1.trans (entries_out hg t rs h1 _ m' e h' (fun b hb => hf b (Nat.le_trans k1.len hb)) (hc.grow k1) (fun k a ha => hr k a (List.mem_cons_of_mem _ ha)) he)
    · cases he
    · cases he

theorem setLoop_out {tys : List (FInfo × DTy)} {assign : DTy → Heap → DV → DOut} {again : Bytes → List Bytes → Heap → List DV → KRes}
    (ha : ∀ t h v, (∀ b, h.length ≤ b → S b) → RClosed R h → VSafe D S h t v → VOut D S h t (assign t h v))
    (hag : ∀ k vis h vs vs' vis' e h', (∀ b, h.length ≤ b → S b) → RClosed R h → VSafeF D S h tys vs → again k vis h vs = .ok ((vs', vis', e), h') →
      VGrow S h h' ∧ VSafeF D S h' tys vs') :
    ∀ (is : List Nat) (vis : List Bytes) (h : Heap) (vs : List DV) (vs' : List DV) (vis' : List Bytes) (e : Option UErr) (h' : Heap),
    (∀ b, h.length ≤ b → S b) → RClosed R h → VSafeF D S h tys vs → setLoopD tys assign again is vis h vs = .ok ((vs', vis', e), h') → VGrow S h h' ∧ VSafeF D S h' tys vs'
  | [], vis, h, vs, vs', vis', e, h', hf, hc, hs, he => by simp only [setLoopD] at he; cases he; exact ⟨.refl h, hs⟩
  | i :: is, vis, h, vs, vs', vis', e, h', hf, hc, hs, he => by
    simp only [setLoopD] at he
    split at he
    · rename_i info t v hti hvi
      have ho := ha t h v hf hc (hs i info t v hti hvi)
      split at he
      · cases he
      · cases he
      · rename_i v1 e1 h1 hg1
        cases he
        obtain ⟨k1, k2⟩ := ho _ _ _ hg1
        exact ⟨k1, (hs.grow k1).set hti k2⟩
      · rename_i v1 h1 hg1
        obtain ⟨k1, k2⟩ := ho _ _ _ hg1
        have hf1 : ∀ b, h1.length ≤ b → S b := fun b hb => hf b (Nat.le_trans k1.len hb)
        have hs1 := (hs.grow k1).set hti k2
        split at he
        · obtain ⟨m1, m2⟩ := setLoop_out ha hag is vis h1 _ vs' vis' e h' hf1 (hc.grow k1) hs1 he
          exact ⟨k1.trans m1, m2⟩
        · split at he
          · cases he
          · cases he
          · rename_i vs1 vis1 e1 h2 hg2
            cases he
            obtain ⟨m1, m2⟩ := hag _ _ _ _ _ _ _ _ hf1 (hc.grow k1) hs1 hg2
            exact ⟨k1.trans m1, m2⟩
          · rename_i vs1 vis1 h2 hg2
            obtain ⟨m1, m2⟩ := hag _ _ _ _ _ _ _ _ hf1 (hc.grow k1) hs1 hg2
            obtain ⟨n1, n2⟩ := setLoop_out ha hag is vis1 h2 _ vs' vis' e h' (fun b hb => hf1 b (Nat.le_trans m1.len hb)) ((hc.grow k1).grow m1) m2 he
            exact ⟨(k1.trans m1).trans n1, n2⟩
    · cases he

theorem setKey_out {idx : Bytes → List Nat} {tys : List (FInfo × DTy)} {assign : DTy → Heap → DV → DOut}
    (ha : ∀ t h v, (∀ b, h.length ≤ b → S b) → RClosed R h → VSafe D S h t v → VOut D S h t (assign t h v)) : ∀ (f : Nat),
    ∀ k vis h vs vs' vis' e h', (∀ b, h.length ≤ b → S b) → RClosed R h → VSafeF D S h tys vs → setKeyD idx tys assign f k vis h vs = .ok ((vs', vis', e), h') →
      VGrow S h h' ∧ VSafeF D S h' tys vs'
  | 0, k, vis, h, vs, vs', vis', e, h', hf, hc, hs, he => by cases he
  | f + 1, k, vis, h, vs, vs', vis', e, h', hf, hc, hs, he => by
    simp only [setKeyD] at he
    split at he
    · cases he; exact ⟨.refl h, hs⟩
    · exact setLoop_out ha (setKey_out ha f) _ _ h vs vs' vis' e h' hf hc hs he

theorem fields_out {g : DTy → Heap → Ref → DV → DOut} (hg : VOutG D S R g) (n : Nat) {tys : List (FInfo × DTy)} (hn : D.defs[n]? = some tys) :
    ∀ (rs : SMap Ref) (h : Heap) (vs vs' : List DV) (es : List UErr) (h' : Heap),
    (∀ b, h.length ≤ b → S b) → RClosed R h → (∀ k a, (k, some a) ∈ rs → R a) → VSafeF D S h tys vs →
    fieldsD D n (fun r t h v => g t h r v) h rs vs = .ok ((vs', es), h') → VGrow S h h' ∧ VSafeF D S h' tys vs'
  | [], h, vs, vs', es, h', hf, hc, hr, hs, he => by simp only [fieldsD] at he; cases he; exact ⟨.refl h, hs⟩
  | (k, r) :: rs, h, vs, vs', es, h', hf, hc, hr, hs, he => by
    have hgD : D.defs.getD n [] = tys := by simp [List.getD_eq_getElem?_getD, hn]
    simp only [fieldsD, hgD] at he
    split at he
    · cases he
    · split at he
      · cases he
      · cases he
      · rename_i vs1 vis1 e1 h1 hk1
        obtain ⟨k1, k2⟩ := setKey_out (R := R) (fun t h v f1 f2 f3 => hg t h r v f1 f2 (fun a ha => hr k a (by rw [ha]; exact List.mem_cons_self ..)) f3) _ _ _ _ _ _ _ _ _ hf hc hs hk1
        cases hr2 : fieldsD D n (fun r t h v => g t h r v) h1 rs vs1 with
        | ok p =>
          obtain ⟨⟨vs2, e2⟩, h2⟩ := p
          rw [hr2] at he
          cases he
          obtain ⟨m1, m2⟩ := fields_out hg n hn rs h1 vs1 vs2 e2 h2 (fun b hb => hf b (Nat.le_trans k1.len hb)) (hc.grow k1) (fun k a ha => hr k a (List.mem_cons_of_mem _ ha)) k2 hr2
          exact ⟨k1.trans m1, m2⟩
        | panic => rw [hr2] at he; cases he
        | fuel => rw [hr2] at he; cases he

theorem resize_safe {h : Heap} {t : DTy} {n : Nat} {v : DV} (hs : VSafe D S h (.slice t) v) : (∀ x ∈ (D.resize t n v).1, VSafe D S h t x) ∧ ∀ x ∈ (D.resize t n v).2, VSafe D S h t x := by
  have hrep : (∀ x ∈ List.replicate n (D.zero t), VSafe D S h t x) ∧ ∀ x ∈ ([] : List DV), VSafe D S h t x :=
    ⟨fun x hx => by rw [List.eq_of_mem_replicate hx]; exact vsafe_zero t t, fun x hx => by cases hx⟩
  cases v with
  | seq xs sp =>
    simp only [DEnv.resize]
    split
    · exact hrep
    · exact ⟨fun x hx => vsafe_seq.1 hs x (List.mem_of_mem_take hx), fun x hx => vsafe_seq.1 hs x (List.mem_of_mem_drop hx)⟩
  | _ => exact hrep

theorem out_map {h : Heap} {t : DTy} {α : Type} {res : CRes (α × Heap)} {w : α → DV × Option UErr}
    (ho : ∀ x h', res = .ok (x, h') → VGrow S h h' ∧ VSafe D S h' t (w x).1) : VOut D S h t (res.map fun p => (w p.1, p.2)) := by
  intro x e h' he
  cases res with
  | ok p =>
    obtain ⟨y, h1⟩ := p
    simp only [CRes.map, CRes.ok.injEq, Prod.mk.injEq] at he
    obtain ⟨e1, rfl⟩ := he
    have := ho y h1 rfl
    rw [e1] at this
    exact this
  | panic => cases he
  | fuel => cases he

theorem no_fields_out {n : Nat} (hn : D.defs[n]? = none) {g : Ref → DTy → Heap → DV → DOut} : ∀ (rs : SMap Ref) (h : Heap) (vs vs' : List DV) (es : List UErr) (h' : Heap),
    fieldsD D n g h rs vs = .ok ((vs', es), h') → VGrow S h h'
  | [], h, vs, vs', es, h', he => by simp only [fieldsD] at he; cases he; exact .refl h
  | (k, r) :: rs, h, vs, vs', es, h', he => by
    have hgD : D.defs.getD n [] = [] := by simp [List.getD_eq_getElem?_getD, hn]
    simp only [fieldsD, hgD] at he
    split at he
    · cases he
    · split at he
      · cases he
      · cases he
      · rename_i vs1 vis1 e1 h1 hk1
        have : h1 = h := by
          simp only [List.length_nil, setKeyD, List.not_mem_nil, if_false] at hk1
          cases hi : D.idx n k with
          | nil => rw [hi] at hk1; simp only [setLoopD] at hk1; cases hk1; rfl
          | cons i is => rw [hi] at hk1; simp only [setLoopD, List.getElem?_nil] at hk1; cases hk1
        subst this
        cases hr2 : fieldsD D n g h1 rs vs1 with
        | ok p =>
          obtain ⟨⟨vs2, e2⟩, h2⟩ := p
          rw [hr2] at he
          cases he
          exact no_fields_out hn rs h1 vs1 vs2 e2 h2 hr2
        | panic => rw [hr2] at he; cases he
        | fuel => rw [hr2] at he; cases he

theorem arrD_out {g : DTy → Heap → Ref → DV → DOut} (hg : VOutG D S R g) {a : Addr} {rs : List Ref} {text : Heap → CRes Bytes} (hS : S a) (t : DTy) (h : Heap) (v : DV)
    (hf : ∀ b, h.length ≤ b → S b) (hc : RClosed R h) (hr : ∀ b, some b ∈ rs → R b) (ha : h[a]? = some (.arr rs)) (hs : VSafe D S h t v) :
    VOut D S h t (arrD D a rs text g t h v) := by
  cases t with
  | sc s =>
    cases s <;> simp only [arrD] <;> first | exact out_ok (.refl h) hs | skip
    intro x e h' he
    cases ht : text h with
    | ok b => rw [ht] at he; cases he; exact ⟨.refl h, vsafe_sc⟩
    | panic => rw [ht] at he; cases he
    | fuel => rw [ht] at he; cases he
  | obj => exact out_ok (.refl h) vsafe_obj
  | jptr k => exact putPtr_out ha hS hs
  | ptr t => exact out_ok (.refl h) hs
  | map t => exact out_ok (.refl h) hs
  | struct n => exact out_ok (.refl h) hs
  | slice t =>
    simp only [arrD]
    obtain ⟨r1, r2⟩ := resize_safe (n := rs.length) hs
    refine out_map (w := fun (q : List DV × Option UErr) => (.seq q.1 (D.resize t rs.length v).2, q.2)) fun x h' he => ?_
    obtain ⟨vs', e⟩ := x
    obtain ⟨k1, k2⟩ := elems_out hg t rs h _ vs' e h' hf hc hr r1 he
    refine ⟨k1, vsafe_seq.2 fun y hy => ?_⟩
    rcases List.mem_append.1 hy with hy | hy
    · exact k2 y hy
    · exact (r2 y hy).grow k1

theorem dictD_out {g : DTy → Heap → Ref → DV → DOut} (hg : VOutG D S R g) {a : Addr} {id : Int} {rs : SMap Ref} {text : Heap → CRes Bytes} (hS : S a) (t : DTy) (h : Heap) (v : DV)
    (hf : ∀ b, h.length ≤ b → S b) (hc : RClosed R h) (hr : ∀ k b, (k, some b) ∈ rs → R b) (ha : h[a]? = some (.dict id rs)) (hs : VSafe D S h t v) :
    VOut D S h t (dictD D a id rs text g t h v) := by
  cases t with
  | sc s =>
    cases s <;> simp only [dictD] <;> first | exact out_ok (.refl h) hs | skip
    intro x e h' he
    cases ht : text h with
    | ok b => rw [ht] at he; cases he; exact ⟨.refl h, vsafe_sc⟩
    | panic => rw [ht] at he; cases he
    | fuel => rw [ht] at he; cases he
  | obj => exact out_ok (.refl h) vsafe_obj
  | jptr k => exact putPtr_out ha hS hs
  | ptr t => exact out_ok (.refl h) hs
  | slice t => exact out_ok (.refl h) hs
  | map t =>
    simp only [dictD]
    refine out_map (w := fun (q : SMap DV × Option UErr) => (.map q.1, q.2)) fun x h' he => ?_
    obtain ⟨m', e⟩ := x
    exact ⟨entries_out hg t rs h _ m' e h' hf hc hr he, vsafe_map⟩
  | struct n =>
    cases v with
    | struct vs =>
      simp only [dictD]
      refine out_map (w := fun (q : List DV × List UErr) => (.struct q.1, if q.2.isEmpty then none else some (.agg q.2))) fun x h' he => ?_
      obtain ⟨vs', es⟩ := x
      cases hd : D.defs[n]? with
      | some tys =>
        obtain ⟨k1, k2⟩ := fields_out hg n hd rs h vs vs' es h' hf hc hr (vsafe_struct.1 hs tys hd) he
        refine ⟨k1, vsafe_struct.2 fun tys' hd' => ?_⟩
        rw [hd] at hd'; cases hd'; exact k2
      | none =>
        have hgrow : VGrow S h h' := no_fields_out hd rs h vs vs' es h' he
        exact ⟨hgrow, vsafe_struct.2 fun tys hd' => by rw [hd] at hd'; cases hd'⟩
    | _ => exact out_ok (.refl h) hs

theorem unmD_out (hRS : ∀ a, R a → S a) : ∀ f, VOutG D S R (unmD D f)
  | f, t, h, none, v, hf, hc, hr, hs => by intro x e h' he; simp only [unmD] at he; cases he
  | 0, t, h, some a, v, hf, hc, hr, hs => by intro x e h' he; simp only [unmD] at he; cases he
  | f + 1, t, h, some a, v, hf, hc, hr, hs => by
    have hg := unmD_out hRS f
    have hR : R a := hr a rfl
    have hS : S a := hRS a hR
    obtain ⟨g1, g2, g3⟩ := alloc_safe t h v hf hs
    have hf1 : ∀ b, (D.alloc t h v).2.length ≤ b → S b := fun b hb => hf b (Nat.le_trans g2.len hb)
    have hc1 := hc.grow g2
    simp only [unmD]
    cases ho : h[a]? with
    | none => intro x e h' he; cases he
    | some o =>
      have ho1 := prefix_get g1 ho
      have hm : ∀ b, some b ∈ o.refs → R b := fun b hb => hc a o b hR ho hb
      cases o with
      | null => exact out_ok (.refl h) (vsafe_zero t t)
      | ptr id => exact out_ok (.refl h) hs
      | bool b => exact (putScalar_out hS t _ _ hf1 ho1 g3).after g2
      | int b => exact (putScalar_out hS t _ _ hf1 ho1 g3).after g2
      | float b c => exact (putScalar_out hS t _ _ hf1 ho1 g3).after g2
      | str b => exact (putScalar_out hS t _ _ hf1 ho1 g3).after g2
      | arr rs =>
        simp only
        split
        · rename_i t' x he
          rw [he] at g3
          split
          · exact ((arrD_out hg hS t' _ x hf1 hc1 hm ho1 (vsafe_ptr.1 g3)).ptr).after g2
          · exact out_ok g2 g3
        · exact (arrD_out hg hS _ _ _ hf1 hc1 hm ho1 g3).after g2
      | dict id rs =>
        have hm' : ∀ k b, (k, some b) ∈ rs → R b := fun k b hb => hm b (List.mem_map.2 ⟨_, hb, rfl⟩)
        simp only
        split
        · rename_i t' x he
          rw [he] at g3
          split
          · exact ((dictD_out hg hS t' _ x hf1 hc1 hm' ho1 (vsafe_ptr.1 g3)).ptr).after g2
          · exact out_ok g2 g3
        · exact (dictD_out hg hS _ _ _ hf1 hc1 hm' ho1 g3).after g2

end Jsonutils
