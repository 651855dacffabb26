import Verif.Proofs.SharedFrame

/-!
# Which objects a variable can hold after `Unmarshal`
-/

namespace Jsonutils

variable {D : DEnv} {T R : Addr → Prop}

/-- Memory has grown, and what is new or changed has no members. -/
structure HGrow (h h' : Heap) : Prop where
  len : h.length ≤ h'.length
  same : ∀ (b : Addr) (o : Obj), h'[b]? = some o → h[b]? = some o ∨ o.refs = []

theorem HGrow.refl (h : Heap) : HGrow h h := ⟨Nat.le_refl _, fun _ _ hb => .inl hb⟩

theorem HGrow.trans {h h1 h2 : Heap} (g1 : HGrow h h1) (g2 : HGrow h1 h2) : HGrow h h2 :=
  ⟨Nat.le_trans g1.len g2.len, fun b o hb => (g2.same b o hb).elim (fun e => g1.same b o e) .inr⟩

theorem HGrow.pushed (h : Heap) {o : Obj} (ho : o.refs = []) : HGrow h (h ++ [o]) := by
  refine ⟨by simp, fun b o' hb => ?_⟩
  by_cases hl : b < h.length
  · rw [List.getElem?_append_left hl] at hb; exact .inl hb
  · rw [List.getElem?_append_right (Nat.le_of_not_lt hl)] at hb
    cases hc : b - h.length with
    | zero => rw [hc] at hb; simp at hb; rw [← hb]; exact .inr ho
    | succ n => rw [hc] at hb; simp at hb

theorem HGrow.set (h : Heap) (b : Addr) {o : Obj} (ho : o.refs = []) : HGrow h (h.set b o) := by
  refine ⟨by simp, fun c o' hc => ?_⟩
  by_cases e : b = c
  · subst e
    rw [List.getElem?_set] at hc
    simp only [if_true] at hc
    split at hc
    · cases hc; exact .inr ho
    · cases hc
  · rw [List.getElem?_set_ne e] at hc; exact .inl hc

theorem RClosed.hgrow {h h' : Heap} (hc : RClosed R h) (hg : HGrow h h') : RClosed R h' := by
  intro a o b ha ho hb
  rcases hg.same a o ho with e | e
  · exact hc a o b ha e hb
  · rw [e] at hb; cases hb

/-- All objects held are in `T`. -/
def DV.In (T : Addr → Prop) (x : DV) : Prop := ∀ b, x.Has b → T b

theorem in_zero (t : DTy) : (D.zero t).In T := fun b hv => absurd hv (zero_noref t b)
theorem in_nil : DV.In T .nil := fun b hv => by cases hv
theorem in_sc {x : UV} : DV.In T (.sc x) := fun b hv => by cases hv
theorem in_ref {a : Addr} : DV.In T (.ref a) ↔ T a := ⟨fun h => h a (.ref a), fun h b hv => by cases hv; exact h⟩
theorem in_ptr {x : DV} : DV.In T (.ptr x) ↔ x.In T := ⟨fun h b hv => h b (.ptr hv), fun h b hv => by cases hv with | ptr hv => exact h b hv⟩
theorem in_seq {xs sp : List DV} : DV.In T (.seq xs sp) ↔ ∀ x ∈ xs ++ sp, x.In T :=
  ⟨fun h x hx b hv => h b (.elem hx hv), fun h b hv => by cases hv with | elem hx hv => exact h _ hx b hv⟩
theorem in_map {m : List (Bytes × DV)} : DV.In T (.map m) ↔ ∀ k x, (k, x) ∈ m → x.In T :=
  ⟨fun h k x hx b hv => h b (.entry hx hv), fun h b hv => by cases hv with | entry hx hv => exact h _ _ hx b hv⟩
theorem in_struct {vs : List DV} : DV.In T (.struct vs) ↔ ∀ x ∈ vs, x.In T :=
  ⟨fun h x hx b hv => h b (.field hx hv), fun h b hv => by cases hv with | field hx hv => exact h _ hx b hv⟩

theorem in_set {vs : List DV} (hs : ∀ x ∈ vs, x.In T) {i : Nat} {v : DV} (hv : v.In T) : ∀ x ∈ vs.set i v, x.In T := by
  intro x hx
  rcases List.mem_or_eq_of_mem_set hx with h | h
  · exact hs x h
  · subst h; exact hv

/-- What is shown of every call. -/
def HOut (T : Addr → Prop) (h : Heap) (res : DOut) : Prop := ∀ x e h', res = .ok ((x, e), h') → HGrow h h' ∧ x.In T

theorem hout_ok {h h' : Heap} {x : DV} {e : Option UErr} (hg : HGrow h h') (hs : x.In T) : HOut T h (.ok ((x, e), h')) := by
  intro x' e' h2 he; cases he; exact ⟨hg, hs⟩

theorem HOut.ptr {h : Heap} {res : DOut} (ho : HOut T h res) : HOut T h (dptr res) := by
  intro x e h' he
  cases res with
  | ok p =>
    obtain ⟨⟨y, e1⟩, h1⟩ := p
    cases he
    exact ⟨(ho y e1 h1 rfl).1, in_ptr.2 (ho y e1 h1 rfl).2⟩
  | panic => cases he
  | fuel => cases he

theorem HOut.after {h h1 : Heap} {res : DOut} (hg : HGrow h h1) (ho : HOut T h1 res) : HOut T h res :=
  fun x e h' he => ⟨hg.trans (ho x e h' he).1, (ho x e h' he).2⟩

theorem alloc_in : ∀ (t : DTy) (h : Heap) (x : DV), (∀ b, h.length ≤ b → T b) → x.In T →
    HGrow h (D.alloc t h x).2 ∧ (D.alloc t h x).1.In T
  | .ptr t, h, x, hf, hs => by
    have main : ∀ y : DV, y.In T → HGrow h (D.alloc t h y).2 ∧ DV.In T (.ptr (D.alloc t h y).1) :=
      fun y hy => have := alloc_in t h y hf hy; ⟨this.1, in_ptr.2 this.2⟩
    cases x with
    | ptr y => exact main y (in_ptr.1 hs)
    | _ => exact main _ (in_zero t)
  | .jptr k, h, x, hf, hs => by
    cases x with
    | nil => exact ⟨HGrow.pushed h (zeroObj_refs k), in_ref.2 (hf _ (Nat.le_refl _))⟩
    | _ => exact ⟨.refl h, hs⟩
  | .sc s, h, x, hf, hs => ⟨.refl h, hs⟩
  | .obj, h, x, hf, hs => ⟨.refl h, hs⟩
  | .slice t, h, x, hf, hs => ⟨.refl h, hs⟩
  | .map t, h, x, hf, hs => ⟨.refl h, hs⟩
  | .struct n, h, x, hf, hs => ⟨.refl h, hs⟩

theorem putPtr_in {a : Addr} {o : Obj} {k : JKind} {h : Heap} {v : DV} (hS : T a) (hs : v.In T) : HOut T h (putPtr D a o k h v) := by
  unfold putPtr
  split
  · exact hout_ok (.refl h) (in_ref.2 hS)
  · exact hout_ok (.refl h) hs
  · rename_i o' hc
    obtain ⟨h1, h2⟩ := convert_write hc
    split
    · exact hout_ok (.set h _ (soft_refs h1 h2)) hs
    · exact hout_ok (.refl h) hs

theorem in_backing {v : DV} (hs : v.In T) : ∀ x ∈ v.backing, x.In T := by
  cases v with
  | seq xs sp => exact in_seq.1 hs
  | _ => intro x hx; cases hx

theorem putScalar_in {a : Addr} {o : Obj} (hS : T a) : ∀ (t : DTy) (h : Heap) (v : DV), (∀ b, h.length ≤ b → T b) → v.In T →
    HOut T h (putScalar D a o t h v)
  | .sc s, h, v, hf, hs => by
    simp only [putScalar]
    split
    · intro x e h' he; cases he
    · exact hout_ok (.refl h) in_sc
  | .obj, h, v, hf, hs => hout_ok (.refl h) (in_ref.2 hS)
  | .jptr k, h, v, hf, hs => putPtr_in hS hs
  | .ptr t, h, v, hf, hs => by
    cases v with
    | ptr y => exact (putScalar_in hS t h y hf (in_ptr.1 hs)).ptr
    | _ => exact hout_ok (.refl h) hs
  | .map t, h, v, hf, hs => hout_ok (.refl h) hs
  | .struct n, h, v, hf, hs => hout_ok (.refl h) hs
  | .slice t, h, v, hf, hs => by
    cases o with
    | str s =>
      have hb := in_backing hs
      have hhd : (v.backing.headD (D.zero t)).In T := by
        cases he : v.backing with
        | nil => exact in_zero t
        | cons y ys => exact hb y (by rw [he]; exact List.mem_cons_self ..)
      obtain ⟨g2, g3⟩ := alloc_in t h _ hf hhd
      have ho := putScalar_in (o := .str s) hS t _ _ (fun b hb => hf b (Nat.le_trans g2.len hb)) g3
      intro x e h' he
      simp only [putScalar] at he
      cases hr : putScalar D a (.str s) t (D.alloc t h (v.backing.headD (D.zero t))).2 (D.alloc t h (v.backing.headD (D.zero t))).1 with
      | ok p =>
        obtain ⟨⟨y, e1⟩, h1⟩ := p
        rw [hr] at he
        cases he
        obtain ⟨k1, k2⟩ := ho y e1 h1 hr
        refine ⟨g2.trans k1, in_seq.2 fun z hz => ?_⟩
        rcases List.mem_append.1 hz with hz | hz
        · rw [List.mem_singleton] at hz; subst hz; exact k2
        · exact hb z (List.mem_of_mem_tail hz)
      | panic => rw [hr] at he; cases he
      | fuel => rw [hr] at he; cases he
    | _ => exact hout_ok (.refl h) hs

/-- The calls for the members. -/
def HOutG (T R : Addr → Prop) (g : DTy → Heap → Ref → DV → DOut) : Prop :=
  ∀ t h r v, (∀ b, h.length ≤ b → T b) → RClosed R h → (∀ a, r = some a → R a) → DV.In T v → HOut T h (g t h r v)

theorem elems_in {g : DTy → Heap → Ref → DV → DOut} (hg : HOutG T R g) (t : DTy) : ∀ (rs : List Ref) (h : Heap) (vs : List DV) (vs' : List DV) (e : Option UErr) (h' : Heap),
    (∀ b, h.length ≤ b → T b) → RClosed R h → (∀ a, some a ∈ rs → R a) → (∀ v ∈ vs, v.In T) → elemsD (g t) h rs vs = .ok ((vs', e), h') →
    HGrow h h' ∧ ∀ v ∈ vs', v.In T
  | [], h, vs, vs', e, h', hf, hc, hr, hv, he => by simp only [elemsD] at he; cases he; exact ⟨.refl h, hv⟩
  | r :: rs, h, [], vs', e, h', hf, hc, hr, hv, he => by simp only [elemsD] at he; cases he
  | r :: rs, h, v :: vs, vs', e, h', hf, hc, hr, hv, he => by
    simp only [elemsD] at he
    have ho := hg t h r v hf hc (fun a ha => hr a (by rw [ha]; exact List.mem_cons_self ..)) (hv v (List.mem_cons_self ..))
    split at he
    · rename_i v1 e1 h1 hg1
      cases he
      obtain ⟨k1, k2⟩ := ho _ _ _ hg1
      refine ⟨k1, fun w hw => ?_⟩
      rcases List.mem_cons.1 hw with rfl | hw
      · exact k2
      · exact hv w (List.mem_cons_of_mem _ hw)
    · rename_i v1 h1 hg1
      obtain ⟨k1, k2⟩ := ho _ _ _ hg1
      cases hr2 : elemsD (g t) h1 rs vs with
      | ok p =>
        obtain ⟨⟨vs2, e2⟩, h2⟩ := p
        rw [hr2] at he
        cases he
        obtain ⟨m1, m2⟩ := elems_in hg t rs h1 vs vs2 e2 h2 (fun b hb => hf b (Nat.le_trans k1.len hb)) (hc.hgrow k1) (fun a ha => hr a (List.mem_cons_of_mem _ ha))
          (fun w hw => hv w (List.mem_cons_of_mem _ hw)) hr2
        refine ⟨k1.trans m1, fun w hw => ?_⟩
        rcases List.mem_cons.1 hw with rfl | hw
        · exact k2
        · exact m2 w hw
      | panic => rw [hr2] at he; cases he
      | fuel => rw [hr2] at he; cases he
    · cases he
    · cases he

theorem entries_in {g : DTy → Heap → Ref → DV → DOut} (hg : HOutG T R g) (t : DTy) : ∀ (rs : SMap Ref) (h : Heap) (m m' : SMap DV) (e : Option UErr) (h' : Heap),
    (∀ b, h.length ≤ b → T b) → RClosed R h → (∀ k a, (k, some a) ∈ rs → R a) → (∀ k x, (k, x) ∈ m → DV.In T x) →
    entriesD (fun h r => g t h r (D.zero t)) h rs m = .ok ((m', e), h') → HGrow h h' ∧ ∀ k x, (k, x) ∈ m' → DV.In T x
  | [], h, m, m', e, h', hf, hc, hr, hm, he => by simp only [entriesD] at he; cases he; exact ⟨.refl h, hm⟩
  | (k, r) :: rs, h, m, m', e, h', hf, hc, hr, hm, he => by
    simp only [entriesD] at he
    have ho := hg t h r (D.zero t) hf hc (fun a ha => hr k a (by rw [ha]; exact List.mem_cons_self ..)) (in_zero t)
    split at he
    · rename_i v1 e1 h1 hg1
      cases he
      exact ⟨(ho _ _ _ hg1).1, hm⟩
    · rename_i v1 h1 hg1
      obtain ⟨k1, k2⟩ := ho _ _ _ hg1
      have := entries_in hg t rs h1 _ m' e h' (fun b hb => hf b (Nat.le_trans k1.len hb)) (hc.hgrow k1) (fun k a ha => hr k a (List.mem_cons_of_mem _ ha))
        (fun k' x hx => by
          rcases mem_smAdd hx with h | h
          · cases h; exact k2
          · exact hm k' x h) he
      exact ⟨k1.trans this.1, this.2⟩
    · cases he
    · cases he

theorem setLoop_in {tys : List (FInfo × DTy)} {assign : DTy → Heap → DV → DOut} {again : Bytes → List Bytes → Heap → List DV → KRes}
    (ha : ∀ t h v, (∀ b, h.length ≤ b → T b) → RClosed R h → DV.In T v → HOut T h (assign t h v))
    (hag : ∀ k vis h vs vs' vis' e h', (∀ b, h.length ≤ b → T b) → RClosed R h → (∀ x ∈ vs, DV.In T x) → again k vis h vs = .ok ((vs', vis', e), h') →
      HGrow h h' ∧ ∀ x ∈ vs', DV.In T x) :
    ∀ (is : List Nat) (vis : List Bytes) (h : Heap) (vs : List DV) (vs' : List DV) (vis' : List Bytes) (e : Option UErr) (h' : Heap),
    (∀ b, h.length ≤ b → T b) → RClosed R h → (∀ x ∈ vs, DV.In T x) → setLoopD tys assign again is vis h vs = .ok ((vs', vis', e), h') → HGrow h h' ∧ ∀ x ∈ vs', DV.In T x
  | [], vis, h, vs, vs', vis', e, h', hf, hc, hs, he => by simp only [setLoopD] at he; cases he; exact ⟨.refl h, hs⟩
  | i :: is, vis, h, vs, vs', vis', e, h', hf, hc, hs, he => by
    simp only [setLoopD] at he
    split at he
    · rename_i info t v hti hvi
      have ho := ha t h v hf hc (hs v (List.mem_of_getElem? hvi))
      split at he
      · cases he
      · cases he
      · rename_i v1 e1 h1 hg1
        cases he
        obtain ⟨k1, k2⟩ := ho _ _ _ hg1
        exact ⟨k1, in_set hs k2⟩
      · rename_i v1 h1 hg1
        obtain ⟨k1, k2⟩ := ho _ _ _ hg1
        have hf1 : ∀ b, h1.length ≤ b → T b := fun b hb => hf b (Nat.le_trans k1.len hb)
        have hs1 := in_set (i := i) hs k2
        split at he
        · obtain ⟨m1, m2⟩ := setLoop_in ha hag is vis h1 _ vs' vis' e h' hf1 (hc.hgrow k1) hs1 he
          exact ⟨k1.trans m1, m2⟩
        · split at he
          · cases he
          · cases he
          · rename_i vs1 vis1 e1 h2 hg2
            cases he
            obtain ⟨m1, m2⟩ := hag _ _ _ _ _ _ _ _ hf1 (hc.hgrow k1) hs1 hg2
            exact ⟨k1.trans m1, m2⟩
          · rename_i vs1 vis1 h2 hg2
            obtain ⟨m1, m2⟩ := hag _ _ _ _ _ _ _ _ hf1 (hc.hgrow k1) hs1 hg2
            obtain ⟨n1, n2⟩ := setLoop_in ha hag is vis1 h2 _ vs' vis' e h' (fun b hb => hf1 b (Nat.le_trans m1.len hb)) ((hc.hgrow k1).hgrow m1) m2 he
            exact ⟨(k1.trans m1).trans n1, n2⟩
    · cases he

theorem setKey_in {idx : Bytes → List Nat} {tys : List (FInfo × DTy)} {assign : DTy → Heap → DV → DOut}
    (ha : ∀ t h v, (∀ b, h.length ≤ b → T b) → RClosed R h → DV.In T v → HOut T h (assign t h v)) : ∀ (f : Nat),
    ∀ k vis h vs vs' vis' e h', (∀ b, h.length ≤ b → T b) → RClosed R h → (∀ x ∈ vs, DV.In T x) → setKeyD idx tys assign f k vis h vs = .ok ((vs', vis', e), h') →
      HGrow h h' ∧ ∀ x ∈ vs', DV.In T x
  | 0, k, vis, h, vs, vs', vis', e, h', hf, hc, hs, he => by cases he
  | f + 1, k, vis, h, vs, vs', vis', e, h', hf, hc, hs, he => by
    simp only [setKeyD] at he
    split at he
    · cases he; exact ⟨.refl h, hs⟩
    · exact setLoop_in ha (setKey_in ha f) _ _ h vs vs' vis' e h' hf hc hs he

theorem fields_in {g : DTy → Heap → Ref → DV → DOut} (hg : HOutG T R g) (n : Nat) :
    ∀ (rs : SMap Ref) (h : Heap) (vs vs' : List DV) (es : List UErr) (h' : Heap),
    (∀ b, h.length ≤ b → T b) → RClosed R h → (∀ k a, (k, some a) ∈ rs → R a) → (∀ x ∈ vs, DV.In T x) →
    fieldsD D n (fun r t h v => g t h r v) h rs vs = .ok ((vs', es), h') → HGrow h h' ∧ ∀ x ∈ vs', DV.In T x
  | [], h, vs, vs', es, h', hf, hc, hr, hs, he => by simp only [fieldsD] at he; cases he; exact ⟨.refl h, hs⟩
  | (k, r) :: rs, h, vs, vs', es, h', hf, hc, hr, hs, he => by
    simp only [fieldsD] at he
    split at he
    · cases he
    · split at he
      · cases he
      · cases he
      · rename_i vs1 vis1 e1 h1 hk1
        obtain ⟨k1, k2⟩ := setKey_in (R := R) (fun t h v f1 f2 f3 => hg t h r v f1 f2 (fun a ha => hr k a (by rw [ha]; exact List.mem_cons_self ..)) f3) _ _ _ _ _ _ _ _ _ hf hc hs hk1
        cases hr2 : fieldsD D n (fun r t h v => g t h r v) h1 rs vs1 with
        | ok p =>
          obtain ⟨⟨vs2, e2⟩, h2⟩ := p
          rw [hr2] at he
          cases he
          obtain ⟨m1, m2⟩ := fields_in hg n rs h1 vs1 vs2 e2 h2 (fun b hb => hf b (Nat.le_trans k1.len hb)) (hc.hgrow k1) (fun k a ha => hr k a (List.mem_cons_of_mem _ ha)) k2 hr2
          exact ⟨k1.trans m1, m2⟩
        | panic => rw [hr2] at he; cases he
        | fuel => rw [hr2] at he; cases he

theorem resize_in {t : DTy} {n : Nat} {v : DV} (hs : v.In T) : (∀ x ∈ (D.resize t n v).1, x.In T) ∧ ∀ x ∈ (D.resize t n v).2, x.In T := by
  have hrep : (∀ x ∈ List.replicate n (D.zero t), x.In T) ∧ ∀ x ∈ ([] : List DV), x.In T :=
    ⟨fun x hx => by rw [List.eq_of_mem_replicate hx]; exact in_zero t, fun x hx => by cases hx⟩
  cases v with
  | seq xs sp =>
    simp only [DEnv.resize]
    split
    · exact hrep
    · exact ⟨fun x hx => in_seq.1 hs x (List.mem_of_mem_take hx), fun x hx => in_seq.1 hs x (List.mem_of_mem_drop hx)⟩
  | _ => exact hrep

theorem hout_map {h : Heap} {α : Type} {res : CRes (α × Heap)} {w : α → DV × Option UErr}
    (ho : ∀ x h', res = .ok (x, h') → HGrow h h' ∧ (w x).1.In T) : HOut T h (res.map fun p => (w p.1, p.2)) := by
  intro x e h' he
  cases res with
  | ok p =>
    obtain ⟨y, h1⟩ := p
    simp only [CRes.map, CRes.ok.injEq, Prod.mk.injEq] at he
    obtain ⟨e1, rfl⟩ := he
    have := ho y h1 rfl
    rw [e1] at this
    exact this
  | panic => cases he
  | fuel => cases he

theorem arrD_in {g : DTy → Heap → Ref → DV → DOut} (hg : HOutG T R g) {a : Addr} {rs : List Ref} {text : Heap → CRes Bytes} (hS : T a) (t : DTy) (h : Heap) (v : DV)
    (hf : ∀ b, h.length ≤ b → T b) (hc : RClosed R h) (hr : ∀ b, some b ∈ rs → R b) (hs : v.In T) : HOut T h (arrD D a rs text g t h v) := by
  cases t with
  | sc s =>
    cases s <;> simp only [arrD] <;> first | exact hout_ok (.refl h) hs | skip
    intro x e h' he
    cases ht : text h with
    | ok b => rw [ht] at he; cases he; exact ⟨.refl h, in_sc⟩
    | panic => rw [ht] at he; cases he
    | fuel => rw [ht] at he; cases he
  | obj => exact hout_ok (.refl h) (in_ref.2 hS)
  | jptr k => exact putPtr_in hS hs
  | ptr t => exact hout_ok (.refl h) hs
  | map t => exact hout_ok (.refl h) hs
  | struct n => exact hout_ok (.refl h) hs
  | slice t =>
    simp only [arrD]
    obtain ⟨r1, r2⟩ := resize_in (D := D) (t := t) (n := rs.length) hs
    refine hout_map (w := fun (q : List DV × Option UErr) => (.seq q.1 (D.resize t rs.length v).2, q.2)) fun x h' he => ?_
    obtain ⟨vs', e⟩ := x
    obtain ⟨k1, k2⟩ := elems_in hg t rs h _ vs' e h' hf hc hr r1 he
    refine ⟨k1, in_seq.2 fun y hy => ?_⟩
    rcases List.mem_append.1 hy with hy | hy
    · exact k2 y hy
    · exact r2 y hy

theorem dictD_in {g : DTy → Heap → Ref → DV → DOut} (hg : HOutG T R g) {a : Addr} {id : Int} {rs : SMap Ref} {text : Heap → CRes Bytes} (hS : T a) (t : DTy) (h : Heap) (v : DV)
    (hf : ∀ b, h.length ≤ b → T b) (hc : RClosed R h) (hr : ∀ k b, (k, some b) ∈ rs → R b) (hs : v.In T) : HOut T h (dictD D a id rs text g t h v) := by
  cases t with
  | sc s =>
    cases s <;> simp only [dictD] <;> first | exact hout_ok (.refl h) hs | skip
    intro x e h' he
    cases ht : text h with
    | ok b => rw [ht] at he; cases he; exact ⟨.refl h, in_sc⟩
    | panic => rw [ht] at he; cases he
    | fuel => rw [ht] at he; cases he
  | obj => exact hout_ok (.refl h) (in_ref.2 hS)
  | jptr k => exact putPtr_in hS hs
  | ptr t => exact hout_ok (.refl h) hs
  | slice t => exact hout_ok (.refl h) hs
  | map t =>
    simp only [dictD]
    refine hout_map (w := fun (q : SMap DV × Option UErr) => (.map q.1, q.2)) fun x h' he => ?_
    obtain ⟨m', e⟩ := x
    have hm : ∀ k x, (k, x) ∈ v.entries → DV.In T x := by
      cases v with
      | map m => exact in_map.1 hs
      | _ => intro k x hx; cases hx
    obtain ⟨k1, k2⟩ := entries_in hg t rs h _ m' e h' hf hc hr hm he
    exact ⟨k1, in_map.2 k2⟩
  | struct n =>
    cases v with
    | struct vs =>
      simp only [dictD]
      refine hout_map (w := fun (q : List DV × List UErr) => (.struct q.1, if q.2.isEmpty then none else some (.agg q.2))) fun x h' he => ?_
      obtain ⟨vs', es⟩ := x
      obtain ⟨k1, k2⟩ := fields_in hg n rs h vs vs' es h' hf hc hr (in_struct.1 hs) he
      exact ⟨k1, in_struct.2 k2⟩
    | _ => exact hout_ok (.refl h) hs

theorem unmD_in (hRS : ∀ a, R a → T a) : ∀ f, HOutG T R (unmD D f)
  | f, t, h, none, v, hf, hc, hr, hs => by intro x e h' he; simp only [unmD] at he; cases he
  | 0, t, h, some a, v, hf, hc, hr, hs => by intro x e h' he; simp only [unmD] at he; cases he
  | f + 1, t, h, some a, v, hf, hc, hr, hs => by
    have hg := unmD_in hRS f
    have hR : R a := hr a rfl
    have hS : T a := hRS a hR
    obtain ⟨g2, g3⟩ := alloc_in (D := D) t h v hf hs
    have hf1 : ∀ b, (D.alloc t h v).2.length ≤ b → T b := fun b hb => hf b (Nat.le_trans g2.len hb)
    have hc1 := hc.hgrow g2
    simp only [unmD]
    cases ho : h[a]? with
    | none => intro x e h' he; cases he
    | some o =>
      have hm : ∀ b, some b ∈ o.refs → R b := fun b hb => hc a o b hR ho hb
      cases o with
      | null => exact hout_ok (.refl h) (in_zero t)
      | ptr id => exact hout_ok (.refl h) hs
      | bool b => exact (putScalar_in hS t _ _ hf1 g3).after g2
      | int b => exact (putScalar_in hS t _ _ hf1 g3).after g2
      | float b c => exact (putScalar_in hS t _ _ hf1 g3).after g2
      | str b => exact (putScalar_in hS t _ _ hf1 g3).after g2
      | arr rs =>
        simp only
        split
        · rename_i t' x he
          rw [he] at g3
          split
          · exact ((arrD_in hg hS t' _ x hf1 hc1 hm (in_ptr.1 g3)).ptr).after g2
          · exact hout_ok g2 g3
        · exact (arrD_in hg hS _ _ _ hf1 hc1 hm g3).after g2
      | dict id rs =>
        have hm' : ∀ k b, (k, some b) ∈ rs → R b := fun k b hb => hm b (List.mem_map.2 ⟨_, hb, rfl⟩)
        simp only
        split
        · rename_i t' x he
          rw [he] at g3
          split
          · exact ((dictD_in hg hS t' _ x hf1 hc1 hm' (in_ptr.1 g3)).ptr).after g2
          · exact hout_ok g2 g3
        · exact (dictD_in hg hS _ _ _ hf1 hc1 hm' g3).after g2

end Jsonutils
