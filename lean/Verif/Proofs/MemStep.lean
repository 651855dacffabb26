import Verif.Proofs.MemBase

/-! # `Unmarshal` in memory refines `Unmarshal` of trees: scalars and texts -/

namespace Jsonutils

/-- The outcome in memory is as that on trees. -/
def MRef (U : Int → Prop) (s : UH) (l : Loc) (F : List Nat) (r : HRes) (u : URes) : Prop := match u with
  | none => r = none
  | some (v', e) => ∃ s' c' F', r = some (s', e) ∧ Fr s s' l F c' F' ∧ Own U s' l c' F' v'

variable {U : Int → Prop} {s s' s'' : UH} {l l' : Loc} {c c' c'' : HV} {F F' F'' G G' : List Nat} {v v' x x' : UV} {P : UEnv}

theorem MRef.same {e : Option UErr} (h : Own U s l c F v) : MRef U s l F (some (s, e)) (some (v, e)) :=
  ⟨s, c, F, rfl, Fr.refl h.get F, h⟩

theorem MRef.after {r : HRes} {u : URes} (hg : s.get l = some c) (h : Fr s s' l F c' F') (hr : MRef U s' l F' r u) : MRef U s l F r u := by
  match u, hr with
  | none, hr => exact hr
  | some (v', e), ⟨s2, c2, F2, h1, h2, h3⟩ => exact ⟨s2, c2, F2, h1, h.trans hg h2, h3⟩

/-- Inside a pointer. -/
theorem Own.deref (h : Own U s l c F (.ptr x)) : ∃ l' c' G, c = .ptr l' ∧ F = l'.base :: G ∧ Own U s l' c' G x ∧ (l.base :: l'.base :: G).Nodup := by
  obtain ⟨l', c', G, rfl, hg, rfl, hx⟩ := h.rep
  exact ⟨l', c', G, rfl, rfl, ⟨hg, hx, (List.nodup_cons.1 h.nodup).2, h.inv⟩, h.nodup⟩

theorem own_ptr (hg : s.get l = some (.ptr l')) (hn : (l.base :: l'.base :: G).Nodup) (hf : Fr s s' l' G c' G') (ho : Own U s' l' c' G' x) :
    Fr s s' l (l'.base :: G) (.ptr l') (l'.base :: G') ∧ Own U s' l (.ptr l') (l'.base :: G') (.ptr x) :=
  ⟨hf.lift hg hn, ⟨(hf.lift hg hn).get hg, ⟨l', c', G', rfl, ho.get, rfl, ho.rep⟩, hf.lift_nodup hg hn ho.nodup, ho.inv⟩⟩

theorem MRef.ptr {r : HRes} {u : URes} (hg : s.get l = some (.ptr l')) (hn : (l.base :: l'.base :: G).Nodup) (h : MRef U s l' G r u) :
    MRef U s l (l'.base :: G) r (uptr u) := by
  match u, h with
  | none, hr => exact hr
  | some (v', e), ⟨s2, c2, F2, h1, h2, h3⟩ =>
    obtain ⟨h4, h5⟩ := own_ptr hg hn h2 h3
    exact ⟨s2, _, _, h1, h4, h5⟩

/-! ### Allocation -/

/-- Nil pointers replaced, all the way down. -/
def UV.Alloced : Ty → UV → Prop
  | .ptr t, v => ∃ x, v = .ptr x ∧ x.Alloced t
  | _, _ => True

theorem alloc_alloced (P : UEnv) : ∀ (t : Ty) (v : UV), (P.alloc t v).Alloced t := by
  intro t
  induction t with
  | ptr t ih =>
    intro v
    cases v <;> exact ⟨_, rfl, ih _⟩
  | _ => intros; trivial

theorem rep_not_ptr {M : List HV} {v : UV} {F : List Nat} {l : Loc} (h : v.Rep M (.ptr l) F) : ∃ x, v = .ptr x := by
  cases v with
  | ptr x => exact ⟨x, rfl⟩
  | seq xs sp => obtain ⟨b, ys, zs, G, H, hc, _⟩ := h; cases hc
  | map kvs => obtain ⟨b, m, G, hc, _⟩ := h; cases hc
  | arr xs => obtain ⟨ys, hc, _⟩ := h; cases hc
  | struct xs => obtain ⟨ys, hc, _⟩ := h; cases hc
  | nil => exact nomatch h.1
  | bool _ => exact nomatch h.1
  | int _ => exact nomatch h.1
  | float _ => exact nomatch h.1
  | str _ => exact nomatch h.1
  | any _ => exact nomatch h.1
  | json _ => exact nomatch h.1

theorem halloc_new (P : UEnv) (t : Ty) (hg : s.get l = some c) (hc : ∀ l', c ≠ .ptr l') :
    P.halloc (.ptr t) l s = P.halloc t ⟨s.mem.length, []⟩ ((s.new (P.hzero t)).2.set l (.ptr ⟨s.mem.length, []⟩)) := by
  rw [UEnv.halloc, hg]
  split
  · rename_i l' h; cases h; exact absurd rfl (hc l')
  · rfl

theorem halloc_ref (P : UEnv) : ∀ (t : Ty) {s : UH} {l : Loc} {c : HV} {F : List Nat} {v : UV}, Own U s l c F v →
    ∃ c' F', Fr s (P.halloc t l s) l F c' F' ∧ Own U (P.halloc t l s) l c' F' (P.alloc t v) := by
  intro t
  induction t with
  | ptr t ih =>
    intro s l c F v h
    by_cases hp : ∃ x, v = .ptr x
    · obtain ⟨x, rfl⟩ := hp
      obtain ⟨l', c', G, rfl, rfl, hx, hn⟩ := h.deref
      obtain ⟨c2, F2, h1, h2⟩ := ih hx
      have e : P.halloc (.ptr t) l s = P.halloc t l' s := by rw [UEnv.halloc, h.get]
      obtain ⟨h3, h4⟩ := own_ptr h.get hn h1 h2
      rw [e]
      exact ⟨_, _, h3, h4⟩
    · have hc : ∀ l', c ≠ .ptr l' := by rintro l' rfl; exact hp (rep_not_ptr h.rep)
      rw [halloc_new P t h.get hc]
      obtain ⟨h1, h2, h3, h4⟩ := own_new h (P.hzero t) (.ptr ⟨s.mem.length, []⟩)
      have ho : Own U ((s.new (P.hzero t)).2.set l (.ptr ⟨s.mem.length, []⟩)) ⟨s.mem.length, []⟩ (P.hzero t) [] (P.zero t) :=
        ⟨by unfold UH.get; rw [memGet_obj]; exact h3, rep_zero P t _, by simp, h.inv⟩
      obtain ⟨c2, F2, h5, h6⟩ := ih ho
      obtain ⟨h7, h8⟩ := own_ptr h2 h4 h5 h6
      have e : P.alloc (.ptr t) v = .ptr (P.alloc t (P.zero t)) := by
        cases v <;> first | rfl | exact absurd ⟨_, rfl⟩ hp
      rw [e]
      exact ⟨_, _, h1.trans h.get h7, h8⟩
  | jptr k =>
    intro s l c F v h
    by_cases hv : v = .nil
    · subst hv
      obtain ⟨rfl, rfl⟩ := h.rep
      have e : P.halloc (.jptr k) l s = s.set l (.val (.json k.zero)) := by rw [UEnv.halloc, h.get]
      rw [e]
      exact ⟨_, _, own_leaf h ⟨rfl, rfl⟩⟩
    · have e : P.halloc (.jptr k) l s = s := by
        rw [UEnv.halloc, h.get]
        split
        · rename_i hc
          cases hc
          have := h.rep
          cases v <;> first | exact absurd rfl hv | exact nomatch this.1 | skip
          · obtain ⟨_, _, _, _, _, hc, _⟩ := this; cases hc
          · obtain ⟨_, hc, _⟩ := this; cases hc
          · obtain ⟨_, _, _, hc, _⟩ := this; cases hc
          · obtain ⟨_, _, _, hc, _⟩ := this; cases hc
          · obtain ⟨_, hc, _⟩ := this; cases hc
        · rfl
      have e' : P.alloc (.jptr k) v = v := by cases v <;> first | rfl | exact absurd rfl hv
      rw [e, e']
      exact ⟨c, F, Fr.refl h.get F, h⟩
  | _ =>
    intro s l c F v h
    exact ⟨c, F, Fr.refl h.get F, by simpa [UEnv.halloc, UEnv.alloc] using h⟩

/-! ### Conversions -/

/-- Values without variables inside. -/
def UV.Leaf : UV → Prop
  | .ptr _ => False
  | .seq _ _ => False
  | .map _ => False
  | .arr _ => False
  | .struct _ => False
  | _ => True

theorem rep_leaf {M : List HV} {v : UV} (h : v.Leaf) : v.Rep M (.val v) [] := by
  cases v <;> first | exact ⟨rfl, rfl⟩ | exact (show False from h).elim

theorem rep_leaf_eq {M : List HV} {v : UV} (h : v.Leaf) (hr : v.Rep M c F) : c = .val v ∧ F = [] := by
  cases v <;> first | exact hr | exact (show False from h).elim

theorem rep_nonleaf {M : List HV} {v : UV} (h : ¬ v.Leaf) (hr : v.Rep M c F) : c.plainVal = .nil := by
  cases v with
  | ptr x => obtain ⟨_, _, _, rfl, _⟩ := hr; rfl
  | seq xs sp => obtain ⟨_, _, _, _, _, rfl, _⟩ := hr; rfl
  | map kvs => obtain ⟨_, _, _, rfl, _⟩ := hr; rfl
  | arr xs => obtain ⟨_, rfl, _⟩ := hr; rfl
  | struct xs => obtain ⟨_, rfl, _⟩ := hr; rfl
  | _ => exact absurd trivial h

/-- A conversion that looks at nothing but the variable itself, on values of type `t`. -/
structure LeafFn (D : Defs) (t : Ty) (g : UV → URes) : Prop where
  leaf : ∀ v, v.Leaf → match g v with
    | none => True
    | some (v', none) => v'.Leaf
    | some (v', some _) => v' = v
  nonleaf : ∀ v, ¬ v.Leaf → v.HasTy D t → ∃ e, g v = some (v, some e) ∧ ∃ w, g .nil = some (w, some e)

theorem hstore_ref {D : Defs} {t : Ty} {g : UV → URes} (hf : LeafFn D t g) (h : Own U s l c F v) (ht : v.HasTy D t) :
    MRef U s l F (hstore g l s) (g v) := by
  unfold hstore
  rw [h.get]
  by_cases hv : v.Leaf
  · obtain ⟨rfl, rfl⟩ := rep_leaf_eq hv h.rep
    have h1 := hf.leaf v hv
    simp only [HV.plainVal]
    match hg : g v with
    | none => simp [MRef]
    | some (v', none) =>
      rw [hg] at h1
      obtain ⟨h2, h3⟩ := own_leaf h (c' := .val v') (v' := v') (rep_leaf h1)
      exact ⟨_, _, _, rfl, h2, h3⟩
    | some (v', some e) =>
      rw [hg] at h1
      simp only at h1
      subst h1
      exact MRef.same h
  · obtain ⟨e, h1, w, h2⟩ := hf.nonleaf v hv ht
    simp only [rep_nonleaf hv h.rep, h1, h2]
    exact MRef.same h

theorem unmInt_leafFn (D : Defs) (n : Int) {t : Ty} (hn : ∀ t', t ≠ .ptr t') : LeafFn D t (unmInt n t) where
  leaf := fun v hv => by
    unfold unmInt
    cases t <;> first | trivial | (simp only [uok, uerr]) | skip
    · exact absurd rfl (hn _)
    · rename_i k; cases k <;> simp [uok, uerr, UV.Leaf]
    · rename_i k; cases k <;> simp [uok, uerr, hv]
  nonleaf := fun v hv ht => by
    cases v with
    | ptr x => obtain ⟨t', rfl, _⟩ := ht; exact absurd rfl (hn _)
    | seq xs sp => obtain ⟨t', rfl, _⟩ := ht; exact ⟨.mismatch, rfl, _, rfl⟩
    | map kvs => obtain ⟨_, t', rfl | rfl, _⟩ := ht <;> exact ⟨.mismatch, rfl, _, rfl⟩
    | arr xs => obtain ⟨t', rfl, _⟩ := ht; exact ⟨.mismatch, rfl, _, rfl⟩
    | struct xs => obtain ⟨n, fs, rfl, _⟩ := ht; exact ⟨.mismatch, rfl, _, rfl⟩
    | _ => exact absurd trivial hv

theorem unmBool_leafFn (D : Defs) (n : Bool) {t : Ty} (hn : ∀ t', t ≠ .ptr t') : LeafFn D t (unmBool n t) where
  leaf := fun v hv => by
    unfold unmBool
    cases t <;> first | trivial | (simp only [uok, uerr]) | skip
    · exact absurd rfl (hn _)
    · rename_i k; cases k <;> simp [uok, uerr, UV.Leaf]
    · rename_i k; cases k <;> simp [uok, uerr, hv]
  nonleaf := fun v hv ht => by
    cases v with
    | ptr x => obtain ⟨t', rfl, _⟩ := ht; exact absurd rfl (hn _)
    | seq xs sp => obtain ⟨t', rfl, _⟩ := ht; exact ⟨.mismatch, rfl, _, rfl⟩
    | map kvs => obtain ⟨_, t', rfl | rfl, _⟩ := ht <;> exact ⟨.mismatch, rfl, _, rfl⟩
    | arr xs => obtain ⟨t', rfl, _⟩ := ht; exact ⟨.mismatch, rfl, _, rfl⟩
    | struct xs => obtain ⟨n, fs, rfl, _⟩ := ht; exact ⟨.mismatch, rfl, _, rfl⟩
    | _ => exact absurd trivial hv

theorem unmFloat_leafFn (D : Defs) (P : UEnv) (f : GoFloat) (bit : Nat) {t : Ty} (hn : ∀ t', t ≠ .ptr t') : LeafFn D t (unmFloat P f bit t) where
  leaf := fun v hv => by
    unfold unmFloat
    cases t <;> first | trivial | (simp only [uok, uerr]) | skip
    · exact absurd rfl (hn _)
    · rename_i k; cases k <;> simp [uok, uerr, UV.Leaf]
    · rename_i k; cases k <;> simp [uok, uerr, hv]
  nonleaf := fun v hv ht => by
    cases v with
    | ptr x => obtain ⟨t', rfl, _⟩ := ht; exact absurd rfl (hn _)
    | seq xs sp => obtain ⟨t', rfl, _⟩ := ht; exact ⟨.mismatch, rfl, _, rfl⟩
    | map kvs => obtain ⟨_, t', rfl | rfl, _⟩ := ht <;> exact ⟨.mismatch, rfl, _, rfl⟩
    | arr xs => obtain ⟨t', rfl, _⟩ := ht; exact ⟨.mismatch, rfl, _, rfl⟩
    | struct xs => obtain ⟨n, fs, rfl, _⟩ := ht; exact ⟨.mismatch, rfl, _, rfl⟩
    | _ => exact absurd trivial hv

theorem unmStr_leafFn (D : Defs) (P : UEnv) (str : Bytes) {t : Ty} (hn : ∀ t', t ≠ .ptr t') (hs : ∀ t', t ≠ .slice t') : LeafFn D t (unmStr P str t) where
  leaf := fun v hv => by
    unfold unmStr
    cases t <;> first | trivial | (simp only [uok, uerr]) | skip
    · cases he : str.isEmpty <;> cases hp : parseInt (normalizeCurrency P.us P.eu str) <;> first | (simp [hv]; done) | simp [UV.Leaf]
    · cases he : str.isEmpty <;> cases hp : parseUint (normalizeCurrency P.us P.eu str) <;> first | (simp [hv]; done) | simp [UV.Leaf]
    · cases he : str.isEmpty <;> cases hp : parseFloat (normalizeCurrency P.us P.eu str) <;> first | (simp [hv]; done) | simp [UV.Leaf]
    · cases he : str.isEmpty <;> cases hp : parseFloat (normalizeCurrency P.us P.eu str) <;> first | (simp [hv]; done) | simp [UV.Leaf]
    · exact absurd rfl (hs _)
    · exact absurd rfl (hn _)
    · rename_i k; cases k <;> simp [uok, uerr, UV.Leaf]
    · rename_i k; cases k <;> simp [uok, uerr, hv]
  nonleaf := fun v hv ht => by
    cases v with
    | ptr x => obtain ⟨t', rfl, _⟩ := ht; exact absurd rfl (hn _)
    | seq xs sp => obtain ⟨t', rfl, _⟩ := ht; exact absurd rfl (hs _)
    | map kvs => obtain ⟨_, t', rfl | rfl, _⟩ := ht <;> exact ⟨.mismatch, rfl, _, rfl⟩
    | arr xs => obtain ⟨t', rfl, _⟩ := ht; exact ⟨.mismatch, rfl, _, rfl⟩
    | struct xs => obtain ⟨n, fs, rfl, _⟩ := ht; exact ⟨.mismatch, rfl, _, rfl⟩
    | _ => exact absurd trivial hv

theorem hscalar_nonptr {f : Ty → UV → URes} {t : Ty} (hn : ∀ t', t ≠ .ptr t') (l : Loc) (s : UH) : hscalar f t l s = hstore (f t) l s := by
  cases t <;> first | rfl | exact absurd rfl (hn _)

theorem hscalar_ref {D : Defs} {f : Ty → UV → URes} (hp : ∀ t x, f (.ptr t) (.ptr x) = uptr (f t x)) (hf : ∀ t, (∀ t', t ≠ .ptr t') → LeafFn D t (f t)) :
    ∀ (t : Ty) {s : UH} {l : Loc} {c : HV} {F : List Nat} {v : UV}, Own U s l c F v → v.HasTy D t → v.Alloced t → MRef U s l F (hscalar f t l s) (f t v) := by
  intro t
  induction t with
  | ptr t ih =>
    intro s l c F v h ht ha
    obtain ⟨x, rfl, ha⟩ := ha
    obtain ⟨l', c', G, rfl, rfl, hx, hn⟩ := h.deref
    rw [hscalar, h.get, hp]
    exact MRef.ptr h.get hn (ih hx (hasTy_ptr ht) ha)
  | _ =>
    intro s l c F v h ht ha
    rw [hscalar_nonptr (by simp)]
    exact hstore_ref (hf _ (by simp)) h ht

/-- Numbers and booleans, with allocation. -/
theorem scalar_ref (hP : P.Ok) {f : Ty → UV → URes} (hp : ∀ t x, f (.ptr t) (.ptr x) = uptr (f t x))
    (hf : ∀ t, (∀ t', t ≠ .ptr t') → LeafFn P.defs t (f t)) {t : Ty} (hv : t.Valid P.defs) (h : Own U s l c F v) (ht : v.HasTy P.defs t) :
    MRef U s l F (hscalar f t l (P.halloc t l s)) (f t (P.alloc t v)) := by
  obtain ⟨c', F', h1, h2⟩ := halloc_ref P t h
  exact MRef.after h.get h1 (hscalar_ref hp hf t h2 (alloc_hasTy hP t v hv ht) (alloc_alloced P t v))


/-! ### Components -/

def wrapH : Bool → List HV → HV
  | true, ys => .arr ys
  | false, ys => .struct ys
def wrapV : Bool → List UV → UV
  | true, ys => .arr ys
  | false, ys => .struct ys

theorem rep_wrap {M : List HV} {k : Bool} {xs : List UV} : (wrapV k xs).Rep M c F ↔ ∃ ys, c = wrapH k ys ∧ UV.Reps M xs ys F := by
  cases k <;> exact Iff.rfl

theorem wrapH_child (k : Bool) (ys : List HV) (i : Nat) : (wrapH k ys).child i = ys[i]? := by cases k <;> rfl
theorem wrapH_setChild (k : Bool) (ys : List HV) (i : Nat) (y : HV) : (wrapH k ys).setChild i y = wrapH k (ys.set i y) := by cases k <;> rfl

theorem own_comp {k : Bool} {xs : List UV} (h : Own U s l c F (wrapV k xs)) {i : Nat} (hx : xs[i]? = some x) :
    ∃ y G, Own U s (l.sub i) y G x ∧ ∀ s' y' G' x', Fr s s' (l.sub i) G y' G' → Own U s' (l.sub i) y' G' x' →
      ∃ c' F', Fr s s' l F c' F' ∧ Own U s' l c' F' (wrapV k (xs.set i x')) := by
  obtain ⟨ys, rfl, hr⟩ := rep_wrap.1 h.rep
  obtain ⟨y, G1, G, G2, hy, rfl, hry, hall⟩ := reps_zip hr hx
  have hn := h.nodup
  have hlt := reps_lt _ _ _ hr
  have hl := h.lt
  have hch : (wrapH k ys).child i = some y := by rw [wrapH_child, hy]
  simp only [List.nodup_cons, List.mem_append, not_or, List.nodup_append] at hn
  obtain ⟨⟨⟨n1, n2⟩, n3⟩, ⟨n4, n5, n6⟩, n7, n8⟩ := hn
  have hbase : (l.sub i).base = l.base := rfl
  refine ⟨y, G, ⟨by unfold UH.get; rw [memGet_sub h.get, hch], hry, by rw [hbase]; simp [n2, n5], h.inv⟩, ?_⟩
  intro s' y' G' x' hf ho
  have hsub := hf.sub
  have hout : ∀ b, b ∈ G1 ∨ b ∈ G2 → s'.mem[b]? = s.mem[b]? := by
    intro b hb
    refine hf.out b ?_ ?_ ?_
    · rcases hb with hb | hb <;> exact hlt b (by simp [hb])
    · rw [hbase]; rintro rfl; rcases hb with hb | hb
      · exact n1 hb
      · exact n3 hb
    · intro h1
      rcases hb with hb | hb
      · exact n6 b hb b h1 rfl
      · exact n8 b (Or.inr h1) b hb rfl
  have hfr : Fr s s' l (G1 ++ G ++ G2) (wrapH k (ys.set i y')) (G1 ++ G' ++ G2) := by
    refine ⟨hf.len, fun b hb h1 h2 => hf.out b hb h1 (fun h3 => h2 (by simp [h3])), ?_, ?_⟩
    · have := hf.base
      rw [hbase] at this
      rw [this, memSet_sub h.get hch, wrapH_setChild]
    · intro b hb
      simp only [List.mem_append] at hb ⊢
      rcases hb with (hb | hb) | hb
      · simp [hb]
      · rcases hsub b hb with h1 | h1
        · simp [h1]
        · exact Or.inr h1
      · simp [hb]
  refine ⟨_, _, hfr, hfr.get h.get, rep_wrap.2 ⟨_, rfl, hall s'.mem x' y' G' hout ho.rep⟩, ?_, ho.inv⟩
  have hon := ho.nodup
  rw [hbase] at hon
  simp only [List.nodup_cons, List.mem_append, not_or, List.nodup_append] at hon ⊢
  have hG' : ∀ a, a ∈ G' → a ∉ G1 ∧ a ∉ G2 := by
    intro a ha
    rcases hsub a ha with h1 | h1
    · exact ⟨fun h2 => n6 a h2 a h1 rfl, fun h2 => n8 a (Or.inr h1) a h2 rfl⟩
    · exact ⟨fun h2 => by have := hlt a (by simp [h2]); omega, fun h2 => by have := hlt a (by simp [h2]); omega⟩
  refine ⟨⟨⟨n1, hon.1⟩, n3⟩, ⟨n4, hon.2, ?_⟩, n7, ?_⟩
  · rintro a ha b hb rfl; exact (hG' a hb).1 ha
  · rintro a (ha | ha) b hb rfl
    · exact n8 a (Or.inl ha) a hb rfl
    · exact (hG' a ha).2 hb

/-! ### Slices -/

theorem own_seq {xs sp : List UV} (h : Own U s l c F (.seq xs sp)) :
    ∃ b cb G, c = .seq b xs.length ∧ F = b :: G ∧ Own U s ⟨b, []⟩ cb G (.arr (xs ++ sp)) ∧ (l.base :: b :: G).Nodup ∧ s.cap b = xs.length + sp.length := by
  obtain ⟨b, ys, zs, G, H, rfl, hg, rfl, hx, hs⟩ := h.rep
  refine ⟨b, _, G ++ H, rfl, rfl, ⟨?_, ⟨_, rfl, reps_append hx hs⟩, (List.nodup_cons.1 h.nodup).2, h.inv⟩, h.nodup, ?_⟩
  · unfold UH.get; rw [memGet_obj]; exact hg
  · simp only [UH.cap, hg, List.length_append, reps_length hx, reps_length hs]

theorem own_mkseq {b n : Nat} {xs sp : List UV} (hg : s.get l = some (.seq b n)) (hn : (l.base :: b :: G).Nodup) (hf : Fr s s' ⟨b, []⟩ G c' G')
    (ho : Own U s' ⟨b, []⟩ c' G' (.arr (xs ++ sp))) (hl : xs.length = n) :
    Fr s s' l (b :: G) (.seq b n) (b :: G') ∧ Own U s' l (.seq b n) (b :: G') (.seq xs sp) := by
  have h1 : Fr s s' l (b :: G) (.seq b n) (b :: G') := Fr.lift (l' := ⟨b, []⟩) hg hn hf
  refine ⟨h1, h1.get hg, ?_, Fr.lift_nodup (l' := ⟨b, []⟩) hg hn hf ho.nodup, ho.inv⟩
  obtain ⟨zs, rfl, hr⟩ := ho.rep
  obtain ⟨ys, ys', H, H', rfl, rfl, h2, h3⟩ := reps_split hr
  have h4 := ho.get
  unfold UH.get at h4
  rw [memGet_obj] at h4
  exact ⟨b, ys, ys', H, H', by rw [hl], h4, rfl, h2, h3⟩

theorem hresize_ref (P : UEnv) (t : Ty) (n : Nat) (h : Own U s l c F v) (ht : v.HasTy P.defs (.slice t)) :
    ∃ b s1 cb G, P.hresize t n l s = (b, s1) ∧ s1.get l = some (.seq b n) ∧ (l.base :: b :: G).Nodup ∧ Fr s s1 l F (.seq b n) (b :: G) ∧
      Own U s1 ⟨b, []⟩ cb G (.arr ((P.resize t n v).1 ++ (P.resize t n v).2)) ∧ (P.resize t n v).1.length = n := by
  have fresh : (P.resize t n v) = (List.replicate n (P.zero t), []) →
      P.hresize t n l s = (s.mem.length, (s.new (.arr (List.replicate n (P.hzero t)))).2.set l (.seq s.mem.length n)) →
      ∃ b s1 cb G, P.hresize t n l s = (b, s1) ∧ s1.get l = some (.seq b n) ∧ (l.base :: b :: G).Nodup ∧ Fr s s1 l F (.seq b n) (b :: G) ∧
      Own U s1 ⟨b, []⟩ cb G (.arr ((P.resize t n v).1 ++ (P.resize t n v).2)) ∧ (P.resize t n v).1.length = n := by
    intro h1 h2
    obtain ⟨h3, h4, h5, h6⟩ := own_new h (.arr (List.replicate n (P.hzero t))) (.seq s.mem.length n)
    refine ⟨_, _, .arr (List.replicate n (P.hzero t)), [], h2, h4, h6, h3, ?_, by simp [h1]⟩
    rw [h1]
    refine ⟨by unfold UH.get; rw [memGet_obj]; exact h5, ⟨_, rfl, ?_⟩, by simp, h.inv⟩
    rw [List.append_nil]
    have : ∀ m (M : List HV), UV.Reps M (List.replicate m (P.zero t)) (List.replicate m (P.hzero t)) [] := by
      intro m M
      induction m with
      | zero => exact ⟨rfl, rfl⟩
      | succ m ih => exact ⟨_, _, [], [], rfl, rfl, rep_zero P t M, ih⟩
    exact this n _
  cases v with
  | nil =>
    refine fresh rfl ?_
    obtain ⟨rfl, rfl⟩ := h.rep
    simp only [UEnv.hresize, h.get]
    rfl
  | seq xs sp =>
    obtain ⟨b, cb, G, rfl, rfl, ho, hn, hcap⟩ := own_seq h
    by_cases hlt : xs.length + sp.length < n
    · refine fresh (by simp [UEnv.resize, hlt]) ?_
      simp only [UEnv.hresize, h.get, hcap, hlt, if_true]
      rfl
    · have he : P.hresize t n l s = (b, s.set l (.seq b n)) := by simp only [UEnv.hresize, h.get, hcap, hlt, if_false]
      have hr : P.resize t n (.seq xs sp) = ((xs ++ sp).take n, (xs ++ sp).drop n) := by simp [UEnv.resize, hlt]
      have hne : b ≠ l.base := by rintro rfl; simp at hn
      have hfr : Fr s (s.set l (.seq b n)) l (b :: G) (.seq b n) (b :: G) := Fr.set h.get _ fun b hb => Or.inl hb
      refine ⟨b, _, cb, G, he, hfr.get h.get, hn, hfr, ?_, ?_⟩
      · rw [hr]
        simp only [List.take_append_drop]
        refine ⟨?_, rep_frame _ _ _ ho.rep fun b' hb' => ?_, ho.nodup, ho.inv⟩
        · unfold UH.get UH.set; rw [memGet_set_ne hne]; exact ho.get
        · refine memSet_obj_ne ?_
          rintro rfl
          simp [hb'] at hn
      · rw [hr]; simp; omega
  | map kvs => obtain ⟨_, t', h | h, _⟩ := ht <;> cases h
  | ptr x => obtain ⟨t', h, _⟩ := ht; cases h
  | arr x => obtain ⟨t', h, _⟩ := ht; cases h
  | struct x => obtain ⟨_, _, h, _⟩ := ht; cases h
  | int _ => exact (show False from ht).elim
  | float _ => rcases ht with ⟨h, _⟩ | ⟨h, _⟩ <;> cases h
  | json _ => exact (show False from ht).elim
  | bool _ => exact nomatch ht
  | str _ => exact nomatch ht
  | any _ => exact nomatch ht

end Jsonutils
