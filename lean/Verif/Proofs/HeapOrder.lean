import Verif.Spec.HeapOrder
import Verif.Proofs.HeapEdit

/-! # Histories of calls on memory -/

namespace Jsonutils

variable {N : Prop}

theorem OkRef.mono {h h' : Heap} (hl : h.length ≤ h'.length) {r : Ref} (hr : OkRef N h r) : OkRef N h' r := by
  cases r with
  | none => exact hr
  | some b => exact Nat.lt_of_lt_of_le hr hl

theorem InOrder.get {h : Heap} (hi : InOrder N h) {a : Addr} {o : Obj} (ho : h[a]? = some o) : o.Fine N ∧ ∀ r ∈ o.refs, OkRef N h r :=
  ⟨hi.fine o (List.mem_of_getElem? ho), hi.refs o (List.mem_of_getElem? ho)⟩

theorem InOrder.alloc {h : Heap} (hi : InOrder N h) {o : Obj} (hf : o.Fine N) (hr : ∀ r ∈ o.refs, OkRef N h r) : InOrder N (h ++ [o]) := by
  refine ⟨hi.base.trans (List.prefix_append _ _), fun o' hm => ?_, fun o' hm r hr' => ?_⟩
  · rcases List.mem_append.1 hm with hm | hm
    · exact hi.fine o' hm
    · rw [List.mem_singleton] at hm; subst hm; exact hf
  · have hl : h.length ≤ (h ++ [o]).length := by simp
    rcases List.mem_append.1 hm with hm | hm
    · exact (hi.refs o' hm r hr').mono hl
    · rw [List.mem_singleton] at hm; subst hm; exact (hr r hr').mono hl

theorem InOrder.base3 {h : Heap} (hi : InOrder N h) {d : Addr} {o : Obj} (ho : h[d]? = some o) (hn : o ≠ .null) (hb : ∀ b, o ≠ .bool b) : 3 ≤ d := by
  obtain ⟨t, rfl⟩ := hi.base
  match d, ho with
  | 0, ho => exact absurd (Option.some.inj ho).symm hn
  | 1, ho => exact absurd (Option.some.inj ho).symm (hb _)
  | 2, ho => exact absurd (Option.some.inj ho).symm (hb _)
  | n + 3, _ => exact Nat.le_add_left 3 n

theorem InOrder.set {h : Heap} (hi : InOrder N h) {d : Addr} (hd : 3 ≤ d) {o : Obj} (hf : o.Fine N) (hr : ∀ r ∈ o.refs, OkRef N h r) :
    InOrder N (h.set d o) := by
  have mem : ∀ o' ∈ h.set d o, o' ∈ h ∨ o' = o := fun o' hm => List.mem_or_eq_of_mem_set hm
  refine ⟨?_, fun o' hm => ?_, fun o' hm r hr' => ?_⟩
  · obtain ⟨t, rfl⟩ := hi.base
    refine ⟨t.set (d - Heap.base.length) o, ?_⟩
    rw [List.set_append_right _ _ hd]
  · rcases mem o' hm with hm | rfl
    · exact hi.fine o' hm
    · exact hf
  · have hl : h.length ≤ (h.set d o).length := by simp
    rcases mem o' hm with hm | rfl
    · exact (hi.refs o' hm r hr').mono hl
    · exact (hr r hr').mono hl

/-- No object contains itself. -/
def Unknotted (h : Heap) : Prop := ∀ a, a < h.length → Knotless h (some a)

theorem Knotless.keep {h h' : Heap} {d : Addr} (hk : ∀ y, y < h.length → y ≠ d → h'[y]? = h[y]?) {r : Ref} (hr : Knotless h r) :
    (∀ b, r = some b → ¬ Reach h b d) → Knotless h' r := by
  induction hr with
  | nil => intro _; exact .nil
  | @node a o ho _ ih =>
    intro hn
    have had : a ≠ d := fun e => hn a rfl (e ▸ .refl a)
    refine .node (o := o) (by rw [hk a (List.getElem?_eq_some_iff.1 ho).1 had]; exact ho) fun r hr => ih r hr fun b hb hrb => ?_
    subst hb
    exact hn a rfl (.step ho hr hrb)

theorem Knotless.all {h h' : Heap} {d : Addr} (hk : ∀ y, y < h.length → y ≠ d → h'[y]? = h[y]?) (hd : Knotless h' (some d)) {r : Ref}
    (hr : Knotless h r) : Knotless h' r := by
  induction hr with
  | nil => exact .nil
  | @node a o ho _ ih =>
    by_cases had : a = d
    · subst had; exact hd
    · exact .node (o := o) (by rw [hk a (List.getElem?_eq_some_iff.1 ho).1 had]; exact ho) ih

theorem knotless_cycle {h : Heap} {r : Ref} (hr : Knotless h r) : ∀ a o c, r = some a → h[a]? = some o → some c ∈ o.refs → ¬ Reach h c a := by
  have key : ∀ {r : Ref}, Knotless h r → ∀ a, r = some a → ∀ o c, h[a]? = some o → some c ∈ o.refs → ¬ Reach h c a := by
    intro r hr
    induction hr with
    | nil => intro a ha; cases ha
    | @node a o ho hc ih =>
      intro a' ha o' c ho' hm hreach
      cases ha
      rw [ho] at ho'; cases ho'
      -- `c` lies on the cycle too
      have : ∃ o2 c2, h[c]? = some o2 ∧ some c2 ∈ o2.refs ∧ Reach h c2 c := by
        cases hreach with
        | refl => exact ⟨o, _, ho, hm, .refl _⟩
        | step g1 g2 g3 => exact ⟨_, _, g1, g2, reach_trans g3 (.step ho hm (.refl _))⟩
      obtain ⟨o2, c2, e1, e2, e3⟩ := this
      exact ih (some c) hm c rfl o2 c2 e1 e2 e3
  exact fun a o c ha => key hr a ha o c

theorem Unknotted.alloc {h : Heap} (hu : Unknotted h) {o : Obj} (hr : ∀ b, some b ∈ o.refs → b < h.length) : Unknotted (h ++ [o]) := by
  intro a ha
  have old : ∀ b, b < h.length → Knotless (h ++ [o]) (some b) := fun b hb => (hu b hb).mono (List.prefix_append _ _)
  by_cases hal : a < h.length
  · exact old a hal
  · have : a = h.length := by simp at ha; omega
    subst this
    refine .node (o := o) fresh_get fun r hr' => ?_
    cases r with
    | none => exact .nil
    | some b => exact old b (hr b hr')

theorem Unknotted.set {h : Heap} (hu : Unknotted h) {d : Addr} {o o' : Obj} (ho : h[d]? = some o) (hr : ∀ b, some b ∈ o'.refs → b < h.length ∧ ¬ Reach h b d) :
    Unknotted (h.set d o') := by
  have hk : ∀ y, y < h.length → y ≠ d → (h.set d o')[y]? = h[y]? := fun y _ hy => set_get_ne _ hy
  have hd : Knotless (h.set d o') (some d) := by
    refine .node (o := o') (set_get ho) fun r hr' => ?_
    cases r with
    | none => exact .nil
    | some b => exact (hu b (hr b hr').1).keep hk fun b' hb' => by cases hb'; exact (hr b hr').2
  intro a ha
  exact Knotless.all hk hd (hu a (by simpa using ha))

/-- What `DeepCopy` allocates. -/
theorem deepCopy_inv {ord : SMap Ref → SMap Ref} (hord : ∀ l, (ord l).Perm l) {Inv : Heap → Prop} (hI : ∀ h, Inv h → InOrder N h)
    (hal : ∀ h o, Inv h → o.Fine N → (∀ r ∈ o.refs, OkRef N h r) → Inv (h ++ [o])) : ∀ f : Nat,
    (∀ h r y h', Inv h → OkRef N h r → deepCopyH ord f h r = .ok (y, h') → h.length ≤ h'.length ∧ Inv h' ∧ OkRef N h' y) ∧
    (∀ h rs ys h', Inv h → (∀ r ∈ rs, OkRef N h r) → deepCopysH ord f h rs = .ok (ys, h') → h.length ≤ h'.length ∧ Inv h' ∧ ∀ y ∈ ys, OkRef N h' y) ∧
    (∀ h kvs m m' h', Inv h → (∀ e ∈ kvs, OkRef N h e.2) → SMap.Sorted m → (∀ r ∈ m.map (·.2), OkRef N h r) → deepCopyfH ord f h kvs m = .ok (m', h') →
      h.length ≤ h'.length ∧ Inv h' ∧ SMap.Sorted m' ∧ ∀ r ∈ m'.map (·.2), OkRef N h' r) := by
  intro f
  induction f with
  | zero =>
    refine ⟨fun h r y h' hi hr he => ?_, fun h rs ys h' hi hr he => ?_, fun h kvs m m' h' hi hr hs hm he => ?_⟩
    · cases r with
      | none => simp [deepCopyH] at he; obtain ⟨rfl, rfl⟩ := he; exact ⟨Nat.le_refl _, hi, hr⟩
      | some a => simp [deepCopyH] at he
    · cases rs with
      | nil => simp [deepCopysH] at he; obtain ⟨rfl, rfl⟩ := he; exact ⟨Nat.le_refl _, hi, hr⟩
      | cons a t => simp [deepCopysH] at he
    · cases kvs with
      | nil => simp [deepCopyfH] at he; obtain ⟨rfl, rfl⟩ := he; exact ⟨Nat.le_refl _, hi, hs, hm⟩
      | cons a t => simp [deepCopyfH] at he
  | succ f ih =>
    obtain ⟨ih1, ih2, ih3⟩ := ih
    refine ⟨fun h r y h' hi hr he => ?_, fun h rs ys h' hi hr he => ?_, fun h kvs m m' h' hi hr hs hm he => ?_⟩
    · have new : ∀ (g : Heap) o, h.length ≤ g.length → Inv g → o.Fine N → (∀ r ∈ o.refs, OkRef N g r) → some g.length = y → g ++ [o] = h' →
          h.length ≤ h'.length ∧ Inv h' ∧ OkRef N h' y := by
        rintro g o hl hg hf hr rfl rfl
        refine ⟨by simp; omega, hal g o hg hf hr, ?_⟩
        simp [OkRef]
      cases r with
      | none => simp [deepCopyH] at he; obtain ⟨rfl, rfl⟩ := he; exact ⟨Nat.le_refl _, hi, hr⟩
      | some a =>
        simp only [deepCopyH] at he
        split at he
        · rename_i hn
          have : a < h.length := hr
          rw [List.getElem?_eq_getElem this] at hn; cases hn
        · rename_i xs hx
          cases hc : deepCopysH ord f h xs with
          | ok p =>
            rw [hc] at he
            simp only [Heap.alloc, CRes.ok.injEq, Prod.mk.injEq] at he
            obtain ⟨g1, g2, g3⟩ := ih2 h xs p.1 p.2 hi ((hI h hi).get hx).2 hc
            exact new p.2 (.arr p.1) g1 g2 trivial g3 he.1 he.2
          | panic => rw [hc] at he; cases he
          | fuel => rw [hc] at he; cases he
        · rename_i id kvs hx
          split at he
          · cases he
          · cases hc : deepCopyfH ord f h (ord kvs) [] with
            | ok p =>
              rw [hc] at he
              simp only [Heap.alloc, CRes.ok.injEq, Prod.mk.injEq] at he
              obtain ⟨g1, g2, g3, g4⟩ := ih3 h (ord kvs) [] p.1 p.2 hi
                (fun e he' => ((hI h hi).get hx).2 _ (List.mem_map.2 ⟨e, (hord kvs).mem_iff.1 he', rfl⟩)) List.Pairwise.nil (by simp) hc
              exact new p.2 (.dict 0 p.1) g1 g2 g3 g4 he.1 he.2
            | panic => rw [hc] at he; cases he
            | fuel => rw [hc] at he; cases he
        · rename_i id hx
          simp only [CRes.ok.injEq, Prod.mk.injEq] at he
          obtain ⟨rfl, rfl⟩ := he
          exact ⟨Nat.le_refl _, hi, ((hI h hi).get hx).1⟩
        · rename_i o _ _ _ hx
          simp only [Heap.alloc, CRes.ok.injEq, Prod.mk.injEq] at he
          exact new h o (Nat.le_refl _) hi ((hI h hi).get hx).1 ((hI h hi).get hx).2 he.1 he.2
    · cases rs with
      | nil => simp [deepCopysH] at he; obtain ⟨rfl, rfl⟩ := he; exact ⟨Nat.le_refl _, hi, hr⟩
      | cons x xs =>
        simp only [deepCopysH] at he
        cases hc : deepCopyH ord f h x with
        | ok p =>
          rw [hc] at he
          obtain ⟨g1, g2, g3⟩ := ih1 h x p.1 p.2 hi (hr x (by simp)) hc
          simp only at he
          cases hc2 : deepCopysH ord f p.2 xs with
          | ok q =>
            rw [hc2] at he
            simp only [CRes.ok.injEq, Prod.mk.injEq] at he
            obtain ⟨rfl, rfl⟩ := he
            obtain ⟨j1, j2, j3⟩ := ih2 p.2 xs q.1 q.2 g2 (fun r hr' => (hr r (by simp [hr'])).mono g1) hc2
            refine ⟨Nat.le_trans g1 j1, j2, fun y hy => ?_⟩
            rcases List.mem_cons.1 hy with rfl | hy
            · exact g3.mono j1
            · exact j3 y hy
          | panic => rw [hc2] at he; cases he
          | fuel => rw [hc2] at he; cases he
        | panic => rw [hc] at he; cases he
        | fuel => rw [hc] at he; cases he
    · cases kvs with
      | nil => simp [deepCopyfH] at he; obtain ⟨rfl, rfl⟩ := he; exact ⟨Nat.le_refl _, hi, hs, hm⟩
      | cons e kvs =>
        obtain ⟨k, x⟩ := e
        simp only [deepCopyfH] at he
        cases hc : deepCopyH ord f h x with
        | ok p =>
          rw [hc] at he
          obtain ⟨g1, g2, g3⟩ := ih1 h x p.1 p.2 hi (hr (k, x) (by simp)) hc
          obtain ⟨j1, j2, j3, j4⟩ := ih3 p.2 kvs (smAdd m k p.1) m' h' g2 (fun e he' => (hr e (by simp [he'])).mono g1) (sorted_smAdd hs _ _)
            (fun r hr' => by
              rcases mem_smAdd_refs hr' with rfl | hr'
              · exact g3
              · exact (hm r hr').mono g1) he
          exact ⟨Nat.le_trans g1 j1, j2, j3, j4⟩
        | panic => rw [hc] at he; cases he
        | fuel => rw [hc] at he; cases he

theorem sorted_smDelete {m : SMap Ref} (hs : SMap.Sorted m) (k : Bytes) : SMap.Sorted (smDelete m k).1 := by
  rw [smDelete_eq hs]; exact sorted_filter hs _

/-- Memory in order and, if `U`, without cycles. -/
def Kept (N U : Prop) (h : Heap) : Prop := InOrder N h ∧ (U → Unknotted h)

variable {U : Prop}

theorem OkRef.lt {h : Heap} {b : Addr} (hr : OkRef N h (some b)) : b < h.length := hr

theorem Kept.alloc {h : Heap} (hi : Kept N U h) {o : Obj} (hf : o.Fine N) (hr : ∀ r ∈ o.refs, OkRef N h r) : Kept N U (h ++ [o]) :=
  ⟨hi.1.alloc hf hr, fun hu => (hi.2 hu).alloc fun b hb => (hr (some b) hb).lt⟩

theorem Kept.set {h : Heap} (hi : Kept N U h) {d : Addr} {o o' : Obj} (ho : h[d]? = some o) (hn : o ≠ .null) (hb : ∀ b, o ≠ .bool b) (hf : o'.Fine N)
    (hr : ∀ r ∈ o'.refs, r ∈ o.refs ∨ OkRef N h r ∧ (U → ∀ b, r = some b → ¬ Reach h b d)) : Kept N U (h.set d o') := by
  have hok : ∀ r ∈ o'.refs, OkRef N h r := fun r hm => by
    rcases hr r hm with h1 | h1
    · exact (hi.1.get ho).2 r h1
    · exact h1.1
  refine ⟨hi.1.set (hi.1.base3 ho hn hb) hf hok, fun hu => (hi.2 hu).set ho fun b hm => ⟨(hok _ hm).lt, ?_⟩⟩
  rcases hr _ hm with h1 | h1
  · exact knotless_cycle (hi.2 hu d (List.getElem?_eq_some_iff.1 ho).1) d o b rfl ho h1
  · exact h1.2 hu b rfl

theorem Kept.addH {v : Ref} : ∀ (path : List Bytes) (h : Heap) (d : Addr) (r : Option AErr × Heap), Kept N U h → OkRef N h v →
    (U → ∀ b p t, v = some b → p <+: path → Way h d (p.map .key) t → ¬ Reach h b t) → addH h d v path = some r → Kept N U r.2 := by
  intro path
  induction path with
  | nil => intro h d r hi _ _ he; simp only [Jsonutils.addH, Option.some.injEq] at he; subst he; exact hi
  | cons k ks ih =>
    intro h d r hi hv hsep he
    have hput : ∀ id rs, h[d]? = some (.dict id rs) → Kept N U (h.set d (.dict id (smAdd rs k v))) := by
      intro id rs ho
      refine hi.set ho (by simp) (by simp) (sorted_smAdd (hi.1.get ho).1 _ _) fun r hr => ?_
      rcases mem_smAdd_refs hr with rfl | hr
      · exact Or.inr ⟨hv, fun hu b hb => hsep hu b [] d hb List.nil_prefix (.here d)⟩
      · exact Or.inl hr
    cases ks with
    | nil =>
      simp only [Jsonutils.addH, setH] at he
      split at he
      · rename_i id rs ho
        simp only [Option.map_some, Option.some.injEq] at he
        subst he; exact hput id rs ho
      · simp at he
    | cons k2 ks =>
      have hd : ∃ id rs, h[d]? = some (.dict id rs) := by
        rw [addH.eq_def] at he; simp only at he
        split at he
        · exact ⟨_, _, by assumption⟩
        · cases he
      obtain ⟨id, rs, ho⟩ := hd
      have hs : SMap.Sorted rs := (hi.1.get ho).1
      rcases addH_step ho v k k2 ks with ⟨_, g2⟩ | ⟨b, g1, _, g3⟩ | ⟨_, _, _, _, g4⟩
      · rw [g2] at he
        have hlt : d < h.length := (List.getElem?_eq_some_iff.1 ho).1
        have hi1 : Kept N U (h ++ [Obj.dict 0 []]) := hi.alloc List.Pairwise.nil (by simp [Obj.refs])
        have ho1 : (h ++ [Obj.dict 0 []])[d]? = some (.dict id rs) := by rw [List.getElem?_append_left hlt]; exact ho
        have hi2 : Kept N U ((h ++ [Obj.dict 0 []]).set d (.dict id (smAdd rs k (some h.length)))) := by
          refine hi1.set ho1 (by simp) (by simp) (sorted_smAdd hs _ _) fun r hr => ?_
          rcases mem_smAdd_refs hr with rfl | hr
          · refine Or.inr ⟨by simp [OkRef], fun _ b hb hreach => ?_⟩
            cases hb
            cases hreach with
            | refl => exact Nat.lt_irrefl _ hlt
            | step f1 f2 _ => rw [fresh_get] at f1; cases f1; simp [Obj.refs] at f2
          · exact Or.inl hr
        refine ih _ h.length r hi2 (hv.mono (by simp)) (fun hu b p t hb _ hp hr => ?_) he
        subst hb
        have e1 : ((h ++ [Obj.dict 0 []]).set d (.dict id (smAdd rs k (some h.length))))[h.length]? = some (.dict 0 []) := by
          rw [set_get_ne _ (Nat.ne_of_gt hlt)]; exact fresh_get
        have ht : t = h.length := by
          cases hpm : p.map Move.key with
          | nil => rw [hpm] at hp; cases hp; rfl
          | cons m ms =>
            rw [hpm] at hp
            cases hp with
            | key f1 f2 _ => rw [e1] at f1; cases f1; simp at f2
            | elem f1 => rw [e1] at f1; cases f1
        subst ht
        have hod : ¬ Reach h b d := hsep hu b [] d rfl List.nil_prefix (.here d)
        have hin : ∀ x y, Reach ((h ++ [Obj.dict 0 []]).set d (.dict id (smAdd rs k (some h.length)))) x y → Reach h b x → x < h.length → y < h.length := by
          intro x y hxy
          induction hxy with
          | refl => exact fun _ h => h
          | @step x c y ob s1 s2 _ ihr =>
            intro hox hx
            have hxd : x ≠ d := fun e => hod (e ▸ hox)
            rw [set_get_ne _ hxd, List.getElem?_append_left hx] at s1
            exact ihr (reach_trans hox (.step s1 s2 (.refl c))) ((hi.1.get s1).2 _ s2).lt
        exact absurd (hin b _ hr (.refl b) hv.lt) (Nat.lt_irrefl _)
      · rw [g3] at he
        refine ih h b r hi hv (fun hu b' p t hb hp hw => hsep hu b' (k :: p) t hb ?_ ?_) he
        · obtain ⟨s, hs⟩ := hp; exact ⟨s, by simp [hs]⟩
        · exact .key ho ((smGet_mem_iff hs).1 g1) hw
      · rw [g4] at he; cases he; exact hi

theorem Kept.run {h : Heap} (hi : Kept N U h) {c : Call} (hl : c.Legal N h) (hu : U → c.Untied h) : Kept N U (c.run h) := by
  cases c with
  | new o => exact hi.alloc hl.1 hl.2
  | set d k v =>
    simp only [Call.run, setH]
    split
    · rename_i id kvs ho
      refine hi.set ho (by simp) (by simp) (sorted_smAdd (hi.1.get ho).1 _ _) fun r hr => ?_
      rcases mem_smAdd_refs hr with rfl | hr
      · exact Or.inr ⟨hl, fun u => hu u⟩
      · exact Or.inl hr
    · exact hi
  | remove d k =>
    simp only [Call.run, removeH]
    cases ho : h[d]? with
    | none => exact hi
    | some o =>
      cases o with
      | dict id kvs =>
        exact hi.set ho (by simp) (by simp) (sorted_smDelete (hi.1.get ho).1 _) fun r hr => Or.inl (mem_smDelete_refs hr)
      | _ => exact hi
  | setAt d i v =>
    simp only [Call.run, setAtH]
    split
    · rename_i xs ho
      split
      · refine hi.set ho (by simp) (by simp) trivial fun r hr => ?_
        rcases List.mem_or_eq_of_mem_set hr with h | rfl
        · exact Or.inl h
        · exact Or.inr ⟨hl, fun u => hu u⟩
      · exact hi
    · exact hi
  | append d vs =>
    simp only [Call.run, arrAddH]
    split
    · rename_i xs ho
      refine hi.set ho (by simp) (by simp) trivial fun r hr => ?_
      rcases List.mem_append.1 hr with h | h
      · exact Or.inl h
      · exact Or.inr ⟨hl r h, fun u b hb => hu u b (hb ▸ h)⟩
    · exact hi
  | add d v path =>
    simp only [Call.run]
    cases hr : Jsonutils.addH h d v path with
    | none => exact hi
    | some r => exact hi.addH path h d r hl (fun u => hu u) hr
  | update d o =>
    simp only [Call.run, updateH]
    split
    · rename_i id kvs id2 kvs2 hd hd2
      refine hi.set hd (by simp) (by simp) (sorted_smMerge (hi.1.get hd).1 _) fun r hr => ?_
      rcases mem_foldl_smAdd_refs hr with h | h
      · refine Or.inr ⟨(hi.1.get hd2).2 r h, fun u b hb => ?_⟩
        obtain ⟨⟨k, r'⟩, e1, e2⟩ := List.mem_map.1 h
        simp only at e2; subst e2; subst hb
        exact hu u id2 kvs2 k b hd2 e1
      · exact Or.inl h
    · exact hi
    · exact hi
  | floatText d =>
    simp only [Call.run, floatTextH]
    split
    · rename_i x bit ho
      exact hi.set ho (by simp) (by simp) (hi.1.get ho).1 (by simp [Obj.refs])
    · exact hi
  | copyExcludes d ks =>
    simp only [Call.run, copyExcludesH]
    cases ho : h[d]? with
    | none => exact hi
    | some o =>
      cases o with
      | dict id kvs =>
        by_cases hn : nilEntry (kvs.filter fun e => !ks.contains e.1) = true
        · simp only [hn, if_true]; exact hi
        simp only [hn, Bool.false_eq_true, if_false]
        have key : ∀ (l : SMap Ref) (m : SMap Ref), SMap.Sorted m → SMap.Sorted (l.foldl (fun m kv => if ks.contains kv.1 then m else smAdd m kv.1 kv.2) m) ∧
            ∀ r, r ∈ (l.foldl (fun m kv => if ks.contains kv.1 then m else smAdd m kv.1 kv.2) m).map (·.2) → r ∈ l.map (·.2) ∨ r ∈ m.map (·.2) := by
          intro l
          induction l with
          | nil => intro m hm; exact ⟨hm, fun r h => Or.inr h⟩
          | cons e l ih =>
            intro m hm
            rw [List.foldl_cons]
            split
            · exact ⟨(ih m hm).1, fun r h => by
                rcases (ih m hm).2 r h with h | h
                · left; rw [List.map_cons]; exact List.mem_cons_of_mem _ h
                · exact Or.inr h⟩
            · have := ih _ (sorted_smAdd hm e.1 e.2)
              refine ⟨this.1, fun r h => ?_⟩
              rcases this.2 r h with h | h
              · left; rw [List.map_cons]; exact List.mem_cons_of_mem _ h
              · rcases mem_smAdd_refs h with h | h
                · left; simp [h]
                · exact Or.inr h
        refine hi.alloc (key kvs [] List.Pairwise.nil).1 fun r hr => ?_
        rcases (key kvs [] List.Pairwise.nil).2 r hr with h | h
        · exact (hi.1.get ho).2 r h
        · simp at h
      | _ => exact hi
  | arrCopy d =>
    simp only [Call.run, arrCopyH]
    cases ho : h[d]? with
    | none => exact hi
    | some o =>
      cases o with
      | arr xs => exact hi.alloc trivial (hi.1.get ho).2
      | _ => exact hi
  | deepCopy ord f r =>
    simp only [Call.run]
    cases hr : deepCopyH ord f h r with
    | panic => exact hi
    | fuel => exact hi
    | ok y => exact ((deepCopy_inv hl.1 (Inv := Kept N U) (fun _ h => h.1) (fun _ _ h hf hr => h.alloc hf hr) f).1 h r y.1 y.2 hi hl.2 hr).2.1

theorem Kept.runs : ∀ (cs : List Call) (h : Heap), Kept N U h → Along (Call.Legal N) h cs → (U → Along Call.Untied h cs) → Kept N U (runCalls h cs) := by
  intro cs
  induction cs with
  | nil => intro h hi _ _; exact hi
  | cons c cs ih =>
    intro h hi hl hu
    exact ih _ (hi.run hl.1 fun u => (hu u).1) hl.2 fun u => (hu u).2

theorem kept_base : Kept N U Heap.base := by
  refine ⟨⟨List.prefix_refl _, ?_, ?_⟩, fun _ a ha => ?_⟩
  · simp [Heap.base, Obj.Fine]
  · simp [Heap.base, Obj.refs]
  · refine .node (List.getElem?_eq_getElem ha) fun r hr => ?_
    have : ∀ o ∈ Heap.base, o.refs = [] := by simp [Heap.base, Obj.refs]
    rw [this _ (List.getElem_mem ha)] at hr; cases hr

theorem seen_wf {h : Heap} (hi : InOrder False h) : ∀ (v : J) (a : Addr), v.Seen h a → v.WF ∧ v.NoPtr := by
  have list : ∀ (xs : List J) (rs : List Ref), J.Ats h (fun _ => True) xs rs → (∀ x ∈ xs, ∀ a, x.Seen h a → x.WF ∧ x.NoPtr) → J.WFs xs ∧ J.NoPtrs xs := by
    intro xs
    induction xs with
    | nil => intro _ _ _; simp [J.WFs, J.NoPtrs]
    | cons x xs ih =>
      intro rs ha hx
      simp only [J.Ats] at ha
      obtain ⟨b, rs', _, h1, h2⟩ := ha
      have := ih rs' h2 fun y hy => hx y (by simp [hy])
      have hb := hx x (by simp) b h1
      exact ⟨⟨hb.1, this.1⟩, ⟨hb.2, this.2⟩⟩
  have fields : ∀ (xs : List (Bytes × J)) (rs : SMap Ref), J.Atf h (fun _ => True) xs rs → (∀ e ∈ xs, ∀ a, e.2.Seen h a → e.2.WF ∧ e.2.NoPtr) →
      J.WFf xs ∧ J.NoPtrf xs := by
    intro xs
    induction xs with
    | nil => intro _ _ _; simp [J.WFf, J.NoPtrf]
    | cons e xs ih =>
      obtain ⟨k, x⟩ := e
      intro rs ha hx
      simp only [J.Atf] at ha
      obtain ⟨b, rs', _, h1, h2⟩ := ha
      have := ih rs' h2 fun y hy => hx y (by simp [hy])
      have hb := hx (k, x) (by simp) b h1
      exact ⟨⟨hb.1, this.1⟩, ⟨hb.2, this.2⟩⟩
  intro v
  induction v using J.ind with
  | arr xs ih =>
    intro a hv
    simp only [J.Seen, J.At] at hv
    obtain ⟨_, rs, _, h2⟩ := hv
    exact list xs rs h2 fun x hx => by
      obtain ⟨i, hi⟩ := List.mem_iff_getElem?.1 hx
      exact ih i x hi
  | dict id xs ih =>
    intro a hv
    simp only [J.Seen, J.At] at hv
    obtain ⟨_, rs, h1, h2⟩ := hv
    have := fields xs rs h2 fun e he => ih e.1 e.2 he
    exact ⟨⟨Atf_sorted h2 (hi.get h1).1, this.1⟩, this.2⟩
  | ptr id =>
    intro a hv
    simp only [J.Seen, J.At] at hv
    exact absurd (hi.get hv.2).1 (by simp [Obj.Fine])
  | int n =>
    intro a hv
    simp only [J.Seen, J.At] at hv
    exact ⟨(hi.get hv.2).1, by simp [J.NoPtr]⟩
  | float x b =>
    intro a hv
    simp only [J.Seen, J.At] at hv
    exact ⟨(hi.get hv.2).1, by simp [J.NoPtr]⟩
  | _ => intro a hv; simp [J.WF, J.NoPtr]

theorem inOrder_noNil {h : Heap} (hi : InOrder False h) {a : Addr} (ha : a < h.length) : ¬ HasNil h (some a) := by
  have key : ∀ r, HasNil h r → ¬ OkRef False h r := by
    intro r hr
    induction hr with
    | here => exact id
    | inside ho hr _ ih => exact fun _ => ih ((hi.get ho).2 _ hr)
  exact fun hn => key _ hn ha

theorem kept_seen {h : Heap} (hi : Kept False True h) {a : Addr} (ha : a < h.length) : ∃ v : J, v.Seen h a ∧ v.WF ∧ v.NoPtr := by
  obtain ⟨b, v, e, hv⟩ := acyclic_seen (hi.2 trivial a ha) (inOrder_noNil hi.1 ha)
  cases e
  exact ⟨v, hv, seen_wf hi.1 v a hv⟩

/-- The way to `d` up to its first occurrence does not depend on the object `d`. -/
theorem reach_keep {h h' : Heap} {d : Addr} (hk : ∀ y, y ≠ d → h'[y]? = h[y]?) {b c : Addr} (hr : Reach h b c) : c = d → Reach h' b c := by
  induction hr with
  | refl a => intro _; exact .refl a
  | @step a b c o h1 h2 _ ih =>
    intro hc
    by_cases had : a = d
    · subst had; subst hc; exact .refl _
    · exact .step (by rw [hk a had]; exact h1) h2 (ih hc)

end Jsonutils
