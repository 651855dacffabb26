import Verif.Proofs.MemStep

/-! # `Unmarshal` in memory refines `Unmarshal` of trees: texts, arrays, maps, structs -/

namespace Jsonutils

variable {U : Int → Prop} {s s' s'' : UH} {l l' : Loc} {c c' c'' : HV} {F F' F'' G G' : List Nat} {v v' x x' : UV} {P : UEnv}

/-! ### Texts -/

theorem hstr_slice (P : UEnv) (str : Bytes) (t : Ty) (l : Loc) (s : UH) :
    hstr P str (.slice t) l s = hstr P str t ⟨(P.hresize t 1 l s).1, [0]⟩ (P.halloc t ⟨(P.hresize t 1 l s).1, [0]⟩ (P.hresize t 1 l s).2) := by
  rw [hstr]
  unfold UEnv.hresize
  split
  · simp only
    split <;> rfl
  · rfl

theorem unmStr_slice (P : UEnv) (str : Bytes) (t : Ty) {v : UV} (hv : v.HasTy P.defs (.slice t)) :
    ∃ x r, (P.resize t 1 v).1 = [x] ∧ (P.resize t 1 v).2 = r ∧ unmStr P str (.slice t) v = (unmStr P str t (P.alloc t x)).map fun p => (.seq [p.1] r, p.2) := by
  cases v with
  | seq xs sp =>
    cases hb : xs ++ sp with
    | nil =>
      obtain ⟨rfl, rfl⟩ := List.append_eq_nil_iff.1 hb
      exact ⟨P.zero t, [], rfl, rfl, rfl⟩
    | cons y ys =>
      have hl : ¬ xs.length + sp.length < 1 := by rw [← List.length_append, hb]; simp
      refine ⟨y, ys, ?_, ?_, ?_⟩
      · simp [UEnv.resize, hl, hb]
      · simp [UEnv.resize, hl, hb]
      · simp only [unmStr, UV.backing, hb]
  | _ => exact ⟨P.zero t, [], rfl, rfl, rfl⟩

theorem hstr_nonptr (P : UEnv) (str : Bytes) {t : Ty} (hn : ∀ t', t ≠ .ptr t') (hs : ∀ t', t ≠ .slice t') (l : Loc) (s : UH) :
    hstr P str t l s = hstore (unmStr P str t) l s := by
  cases t <;> first | rfl | exact absurd rfl (hn _) | exact absurd rfl (hs _)

theorem hstr_ref (hP : P.Ok) (str : Bytes) :
    ∀ (t : Ty) {s : UH} {l : Loc} {c : HV} {F : List Nat} {v : UV}, t.Valid P.defs → Own U s l c F v → v.HasTy P.defs t → v.Alloced t →
      MRef U s l F (hstr P str t l s) (unmStr P str t v) := by
  intro t
  induction t with
  | ptr t ih =>
    intro s l c F v hv h ht ha
    obtain ⟨x, rfl, ha⟩ := ha
    obtain ⟨l', c', G, rfl, rfl, hx, hn⟩ := h.deref
    rw [hstr, h.get, unmStr]
    exact MRef.ptr h.get hn (ih hv hx (hasTy_ptr ht) ha)
  | slice t ih =>
    intro s l c F v hv h ht _
    obtain ⟨b, s1, cb, G, he, hg, hn, hf, ho, _⟩ := hresize_ref P t 1 h ht
    obtain ⟨x, r, h1, h2, h3⟩ := unmStr_slice P str t ht
    rw [hstr_slice, he, h3]
    rw [h1, h2] at ho
    have hxt : x.HasTy P.defs t := (resize_hasTy (t := t) hP hv ht 1).2.1 x (by simp [h1])
    obtain ⟨y, G0, ho0, hup⟩ := own_comp (k := true) (xs := [x] ++ r) ho (i := 0) rfl
    obtain ⟨c1, F1, h4, h5⟩ := halloc_ref P t ho0
    have h6 := MRef.after ho0.get h4 (ih hv h5 (alloc_hasTy hP t x hv hxt) (alloc_alloced P t x))
    have hfin : ∀ (r' : HRes) (u : URes), MRef U s1 ((Loc.mk b []).sub 0) G0 r' u → MRef U s l F r' (u.map fun p => (.seq [p.1] r, p.2)) := by
      intro r' u hr
      match u, hr with
      | none, hr => exact hr
      | some (v', e), ⟨s2, c2, F2, g1, g2, g3⟩ =>
        obtain ⟨c3, F3, g4, g5⟩ := hup _ _ _ _ g2 g3
        obtain ⟨g6, g7⟩ := own_mkseq (xs := [v']) (sp := r) hg hn g4 g5 rfl
        exact ⟨s2, _, _, g1, hf.trans h.get g6, g7⟩
    exact hfin _ _ h6
  | _ =>
    intro s l c F v hv h ht _
    rw [hstr_nonptr P str (by simp) (by simp)]
    exact hstore_ref (unmStr_leafFn _ P str (by simp) (by simp)) h ht

theorem text_ref (hP : P.Ok) (str : Bytes) {t : Ty} (hv : t.Valid P.defs) (h : Own U s l c F v) (ht : v.HasTy P.defs t) :
    MRef U s l F (hstr P str t l (P.halloc t l s)) (unmStr P str t (P.alloc t v)) := by
  obtain ⟨c', F', h1, h2⟩ := halloc_ref P t h
  exact MRef.after h.get h1 (hstr_ref hP str t hv h2 (alloc_hasTy hP t v hv ht) (alloc_alloced P t v))

/-! ### The session -/

def EvOk (U : Int → Prop) (evs : List NodeEv) : Prop := ∀ id, (.use id ∈ evs → U id) ∧ (.defn id ∈ evs → ¬ U id)

theorem EvOk.left {a b : List NodeEv} (h : EvOk U (a ++ b)) : EvOk U a := fun id => ⟨fun h1 => (h id).1 (by simp [h1]), fun h1 => (h id).2 (by simp [h1])⟩
theorem EvOk.right {a b : List NodeEv} (h : EvOk U (a ++ b)) : EvOk U b := fun id => ⟨fun h1 => (h id).1 (by simp [h1]), fun h1 => (h id).2 (by simp [h1])⟩

theorem own_sess (h : Own U s l c F v) (hm : s'.mem = s.mem) (hi : Inv U s') : Fr s s' l F c F ∧ Own U s' l c F v := by
  refine ⟨⟨by rw [hm]; exact Nat.le_refl _, fun _ _ _ _ => by rw [hm], by rw [memSet_self h.get, hm], fun b hb => Or.inl hb⟩, ?_, ?_, h.nodup, hi⟩
  · unfold UH.get; rw [hm]; exact h.get
  · rw [hm]; exact h.rep

theorem refer_ref {id : Int} (hu : U id) {t : Ty} (h : Inv U s) : ∃ s', s.refer id (l, t) = some s' ∧ s'.mem = s.mem ∧ Inv U s' := by
  unfold UH.refer
  have key : ∀ ts, Inv U (s.note id ⟨none, ts⟩) := by
    intro ts i n hi
    simp only [UH.note] at hi
    split at hi
    · rename_i e; cases hi; subst e; exact ⟨fun _ => rfl, fun h => absurd hu h⟩
    · exact h i n hi
  match hs : s.sess id with
  | none => exact ⟨_, rfl, rfl, key _⟩
  | some ⟨none, ts⟩ => exact ⟨_, rfl, rfl, key _⟩
  | some ⟨some p, ts⟩ => exact absurd ((h id _ hs).1 hu) (by simp)

theorem saveNode_ref {id : Int} (hu : 0 < id → ¬ U id) {p : Loc × Ty} (h : Inv U s) : ∃ s', s.saveNode id p = some s' ∧ s'.mem = s.mem ∧ Inv U s' := by
  unfold UH.saveNode
  split
  · rename_i hid
    have key : Inv U (s.note id ⟨some p, []⟩) := by
      intro i n hi
      simp only [UH.note] at hi
      split at hi
      · rename_i e; cases hi; subst e; exact ⟨fun h => absurd h (hu hid), fun _ => rfl⟩
      · exact h i n hi
    unfold UH.save
    match hs : s.sess id with
    | none => exact ⟨_, rfl, rfl, key⟩
    | some nv =>
      have := (h id nv hs).2 (hu hid)
      simp only [this, UH.setAll]
      exact ⟨_, rfl, rfl, key⟩
  · exact ⟨s, rfl, rfl, h⟩

/-! ### Structs -/

/-- The same outcome for `setStructFieldAt`. -/
def RefS (U : Int → Prop) (D : Defs) (tys : List (FInfo × Ty)) (s : UH) (l : Loc) (F : List Nat) (r : Option (UH × List Bytes × Option UErr)) (u : Option (List UV × List Bytes × Option UErr)) : Prop := match u with
  | none => r = none
  | some (vs', vis', e) => UV.HasTyf D vs' tys ∧ ∃ s' c' F', r = some (s', vis', e) ∧ Fr s s' l F c' F' ∧ Own U s' l c' F' (.struct vs')

theorem RefS.after {D : Defs} {tys : List (FInfo × Ty)} {r : Option (UH × List Bytes × Option UErr)} {u : Option (List UV × List Bytes × Option UErr)}
    (hg : s.get l = some c) (h : Fr s s' l F c' F') (hr : RefS U D tys s' l F' r u) : RefS U D tys s l F r u := by
  match u, hr with
  | none, hr => exact hr
  | some (vs', vis', e), ⟨h0, s2, c2, F2, h1, h2, h3⟩ => exact ⟨h0, s2, c2, F2, h1, h.trans hg h2, h3⟩

section
variable {D : Defs} {tys : List (FInfo × Ty)} {idx : Bytes → List Nat} {assign : Ty → UV → URes} {hassign : Ty → Loc → UH → HRes}
  (hty : ∀ info t v, (info, t) ∈ tys → v.HasTy D t → Fine False D t (assign t v))
  (hasg : ∀ (info : FInfo) (t : Ty) (s : UH) (l : Loc) (c : HV) (F : List Nat) (v : UV), (info, t) ∈ tys → Own U s l c F v → v.HasTy D t → MRef U s l F (hassign t l s) (assign t v))
include hty hasg

theorem hsetLoop_ref {again : Bytes → List Bytes → List UV → Option (List UV × List Bytes × Option UErr)} {hagain : Bytes → List Bytes → UH → Option (UH × List Bytes × Option UErr)}
    (hag : ∀ k vis (s : UH) (c : HV) (F : List Nat) (vs : List UV), Own U s l c F (.struct vs) → UV.HasTyf D vs tys → RefS U D tys s l F (hagain k vis s) (again k vis vs)) :
    ∀ (is : List Nat) (vis : List Bytes) (s : UH) (c : HV) (F : List Nat) (vs : List UV), Own U s l c F (.struct vs) → UV.HasTyf D vs tys →
      RefS U D tys s l F (hsetLoop tys l hassign hagain is vis s) (setLoop tys assign again is vis vs)
  | [], vis, s, c, F, vs, ho, hv => ⟨hv, s, c, F, rfl, Fr.refl ho.get F, ho⟩
  | i :: is, vis, s, c, F, vs, ho, hv => by
    have hlen := ((hasTyf_iff _ _).1 hv).1
    cases ht : tys[i]? with
    | none => simp only [setLoop, hsetLoop, ht]; rfl
    | some p =>
      obtain ⟨info, t⟩ := p
      have hi := (List.getElem?_eq_some_iff.1 ht).1
      obtain ⟨x, hx⟩ : ∃ x, vs[i]? = some x := ⟨_, List.getElem?_eq_getElem (by omega)⟩
      have hxt := ((hasTyf_iff _ _).1 hv).2 i x info t hx ht
      have hmem : (info, t) ∈ tys := List.mem_of_getElem? ht
      obtain ⟨y, G, ho1, hup⟩ := own_comp (k := false) (xs := vs) ho hx
      have h1 := hasg info t s (l.sub i) y G x hmem ho1 hxt
      have hf := (hty info t x hmem hxt).2
      simp only [setLoop, hsetLoop, ht, hx]
      cases ha : assign t x with
      | none =>
        rw [ha] at h1
        rw [show hassign t (l.sub i) s = none from h1]
        rfl
      | some q =>
        obtain ⟨x', e⟩ := q
        rw [ha] at h1
        obtain ⟨s1, y', G', h2, h3, h4⟩ := h1
        obtain ⟨c1, F1, h5, h6⟩ := hup _ _ _ _ h3 h4
        have hset := hasTyf_set hv ht (hf _ ha)
        rw [h2]
        cases e with
        | some e => exact ⟨hset, s1, c1, F1, rfl, h5, h6⟩
        | none =>
          simp only
          cases hd : info.deprecatedBy with
          | none => exact RefS.after ho.get h5 (hsetLoop_ref hag is vis s1 c1 F1 _ h6 hset)
          | some k =>
            simp only
            have h7 := hag k vis s1 c1 F1 _ h6 hset
            cases hagr : again k vis (vs.set i x') with
            | none =>
              rw [hagr] at h7
              rw [show hagain k vis s1 = none from h7]
              rfl
            | some q =>
              obtain ⟨vs1, vis1, e⟩ := q
              rw [hagr] at h7
              obtain ⟨h8, s2, c2, F2, h9, h10, h11⟩ := h7
              rw [h9]
              cases e with
              | some e => exact ⟨h8, s2, c2, F2, rfl, h5.trans ho.get h10, h11⟩
              | none => exact RefS.after ho.get (h5.trans ho.get h10) (hsetLoop_ref hag is vis1 s2 c2 F2 _ h11 h8)

theorem hsetKey_ref : ∀ (f : Nat) (key : Bytes) (vis : List Bytes) (s : UH) (c : HV) (F : List Nat) (vs : List UV), Own U s l c F (.struct vs) → UV.HasTyf D vs tys →
    RefS U D tys s l F (hsetKey idx tys l hassign f key vis s) (setKey idx tys assign f key vis vs)
  | 0, key, vis, s, c, F, vs, _, _ => rfl
  | f + 1, key, vis, s, c, F, vs, ho, hv => by
    simp only [hsetKey, setKey]
    split
    · exact ⟨hv, s, c, F, rfl, Fr.refl ho.get F, ho⟩
    · exact hsetLoop_ref hty hasg (fun k vis s c F vs h1 h2 => hsetKey_ref f k vis s c F vs h1 h2) _ _ s c F vs ho hv
end

/-! ### Maps -/

theorem repm_smAdd {M : List HV} {k : Bytes} {c : HV} {H : List Nat} {v : UV} (hv : v.Rep M c H) (hH : H.Nodup) :
    ∀ {kvs : List (Bytes × UV)} {m : List (Bytes × HV)} {G : List Nat}, UV.Repm M kvs m G → G.Nodup → (∀ b ∈ H, b ∉ G) →
      ∃ G', UV.Repm M (smAdd kvs k v) (smAdd m k c) G' ∧ G'.Nodup ∧ ∀ b ∈ G', b ∈ G ∨ b ∈ H
  | [], _, _, h, _, _ => by
    obtain ⟨rfl, rfl⟩ := h
    exact ⟨H, ⟨c, [], H, [], rfl, by simp, hv, ⟨rfl, rfl⟩⟩, hH, fun b hb => Or.inr hb⟩
  | (k', x) :: xs, _, _, h, hn, hd => by
    obtain ⟨c', r, G, G2, rfl, rfl, hx, hs⟩ := h
    rw [List.nodup_append] at hn
    simp only [List.mem_append, not_or] at hd
    by_cases h1 : blt k' k = true
    · obtain ⟨G', g1, g2, g3⟩ := repm_smAdd hv hH hs hn.2.1 fun b hb => (hd b hb).2
      refine ⟨G ++ G', ?_, ?_, ?_⟩
      · simp only [smAdd, h1, if_true]
        exact ⟨c', _, G, G', rfl, rfl, hx, g1⟩
      · rw [List.nodup_append]
        refine ⟨hn.1, g2, ?_⟩
        rintro a ha b hb rfl
        rcases g3 a hb with h3 | h3
        · exact hn.2.2 a ha a h3 rfl
        · exact (hd a h3).1 ha
      · intro b hb
        simp only [List.mem_append] at hb ⊢
        rcases hb with hb | hb
        · simp [hb]
        · rcases g3 b hb with h3 | h3 <;> simp [h3]
    · by_cases h2 : k' = k
      · subst h2
        refine ⟨H ++ G2, ?_, ?_, ?_⟩
        · simp only [smAdd, h1, if_true]
          exact ⟨c, r, H, G2, rfl, rfl, hv, hs⟩
        · rw [List.nodup_append]
          exact ⟨hH, hn.2.1, by rintro a ha b hb rfl; exact (hd a ha).2 hb⟩
        · intro b hb
          simp only [List.mem_append] at hb ⊢
          rcases hb with hb | hb <;> simp [hb]
      · refine ⟨H ++ (G ++ G2), ?_, ?_, ?_⟩
        · simp only [smAdd, h1, h2, if_false]
          exact ⟨c, _, H, G ++ G2, rfl, rfl, hv, c', r, G, G2, rfl, rfl, hx, hs⟩
        · rw [List.nodup_append]
          refine ⟨hH, List.nodup_append.2 hn, ?_⟩
          rintro a ha b hb rfl
          rcases List.mem_append.1 hb with hb | hb
          · exact (hd a ha).1 hb
          · exact (hd a ha).2 hb
        · intro b hb
          simp only [List.mem_append] at hb ⊢
          rcases hb with hb | hb | hb <;> simp [hb]

theorem own_map {m : List (Bytes × UV)} (h : Own U s l c F (.map m)) :
    ∃ b mm G, c = .map b ∧ F = b :: G ∧ s.mem[b]? = some (.mapObj mm) ∧ UV.Repm s.mem m mm G ∧ (l.base :: b :: G).Nodup := by
  obtain ⟨b, mm, G, rfl, h1, rfl, h2⟩ := h.rep
  exact ⟨b, mm, G, rfl, rfl, h1, h2, h.nodup⟩

theorem makeMap_ref (h : Own U s l c F v) {t : Ty} (ht : v.HasTy P.defs (.map t) ∨ v.HasTy P.defs (.mapOther t)) :
    ∃ c' F', Fr s (s.makeMap l) l F c' F' ∧ Own U (s.makeMap l) l c' F' (.map v.entries) := by
  have hv : v = .nil ∨ ∃ m, v = .map m := by
    cases v with
    | nil => exact Or.inl rfl
    | map m => exact Or.inr ⟨m, rfl⟩
    | ptr x => rcases ht with ⟨_, h, _⟩ | ⟨_, h, _⟩ <;> cases h
    | seq x y => rcases ht with ⟨_, h, _⟩ | ⟨_, h, _⟩ <;> cases h
    | arr x => rcases ht with ⟨_, h, _⟩ | ⟨_, h, _⟩ <;> cases h
    | struct x => rcases ht with ⟨_, _, h, _⟩ | ⟨_, _, h, _⟩ <;> cases h
    | int _ => rcases ht with h | h <;> exact (show False from h).elim
    | float _ => rcases ht with (⟨h, _⟩ | ⟨h, _⟩) | (⟨h, _⟩ | ⟨h, _⟩) <;> cases h
    | json _ => rcases ht with h | h <;> exact (show False from h).elim
    | bool _ => rcases ht with h | h <;> cases h
    | str _ => rcases ht with h | h <;> cases h
    | any _ => rcases ht with h | h <;> cases h
  rcases hv with rfl | ⟨m, rfl⟩
  · obtain ⟨rfl, rfl⟩ := h.rep
    have e : s.makeMap l = (s.new (.mapObj [])).2.set l (.map s.mem.length) := by
      unfold UH.makeMap; rw [h.get]; rfl
    rw [e]
    obtain ⟨h1, h2, h3, h4⟩ := own_new h (.mapObj []) (.map s.mem.length)
    exact ⟨_, _, h1, h2, ⟨_, _, [], rfl, h3, rfl, ⟨rfl, rfl⟩⟩, h4, h.inv⟩
  · obtain ⟨b, mm, G, rfl, rfl, _⟩ := own_map h
    have e : s.makeMap l = s := by unfold UH.makeMap; rw [h.get]
    rw [e]
    exact ⟨_, _, Fr.refl h.get _, h⟩

/-- One entry: from the new variable into the map. -/
theorem setMapIndex_ref {m : List (Bytes × UV)} (h : Own U s l c F (.map m)) (o : HV) {k : Bytes}
    (hf : Fr (s.new o).2 s' ⟨s.mem.length, []⟩ [] c' F') (ho : Own U s' ⟨s.mem.length, []⟩ c' F' v') :
    ∃ s'' F'', s'.setMapIndex l k ⟨s.mem.length, []⟩ = some s'' ∧ Fr s s'' l F c F'' ∧ Own U s'' l c F'' (.map (smAdd m k v')) := by
  obtain ⟨b, mm, G, rfl, rfl, hb, hr, hn⟩ := own_map h
  have hl := h.lt
  have hb' := (List.getElem?_eq_some_iff.1 hb).1
  have hG := repm_lt _ _ _ hr
  have hlen : (s.new o).2.mem.length = s.mem.length + 1 := by simp [UH.new]
  have same : ∀ a, a < s.mem.length → s'.mem[a]? = s.mem[a]? := by
    intro a ha
    rw [hf.out a (by omega) (by simp; omega) (by simp)]
    simp [UH.new, List.getElem?_append_left ha]
  have hfresh : ∀ a ∈ F', s.mem.length < a := by
    intro a ha
    rcases hf.sub a ha with h1 | h1
    · simp at h1
    · omega
  have hg : s'.get l = some (.map b) := by
    unfold UH.get; rw [memGet_congr (same _ hl)]; exact h.get
  have hge := hf.len
  simp only [List.nodup_cons, List.mem_cons, not_or] at hn
  have hr' : UV.Repm s'.mem m mm G := repm_frame _ _ _ hr fun a ha => same a (hG a ha)
  have hon : F'.Nodup := (List.nodup_cons.1 ho.nodup).2
  obtain ⟨G', g1, g2, g3⟩ := repm_smAdd (k := k) ho.rep hon hr' hn.2.2 fun a ha h1 => by
    have := hfresh a ha; have := hG a h1; omega
  have hlen' : s.mem.length ≤ s'.mem.length := by omega
  have hframe : ∀ a, a ≠ b → (s'.mem.set b (.mapObj (smAdd mm k c')))[a]? = s'.mem[a]? := fun a ha => List.getElem?_set_ne (Ne.symm ha)
  have hbG' : b ∉ G' := by
    intro h1
    rcases g3 b h1 with h2 | h2
    · exact hn.2.1 h2
    · have := hfresh b h2; omega
  have hlG' : l.base ∉ G' := by
    intro h1
    rcases g3 _ h1 with h2 | h2
    · exact hn.1.2 h2
    · have := hfresh _ h2; omega
  refine ⟨{ s' with mem := s'.mem.set b (.mapObj (smAdd mm k c')) }, b :: G', ?_, ⟨?_, ?_, ?_, ?_⟩, ?_, ?_, ?_, ho.inv⟩
  · unfold UH.setMapIndex
    rw [hg, ho.get]
    simp only [same b hb', hb]
  · simp; omega
  · intro a ha h1 h2
    simp only [List.mem_cons, not_or] at h2
    simp only [hframe a h2.1]
    exact same a ha
  · rw [memSet_self h.get]
    simp only [hframe _ hn.1.1]
    exact same _ hl
  · intro a ha
    rcases List.mem_cons.1 ha with rfl | ha
    · simp
    · rcases g3 a ha with h1 | h1
      · simp [h1]
      · exact Or.inr (Nat.le_of_lt (hfresh a h1))
  · unfold UH.get
    rw [memGet_congr (M := s'.mem) (hframe _ hn.1.1)]; exact hg
  · refine ⟨b, _, G', rfl, ?_, rfl, repm_frame _ _ _ g1 fun a ha => hframe a (fun e => hbG' (e ▸ ha))⟩
    exact List.getElem?_set_self (by omega)
  · simp only [List.nodup_cons, List.mem_cons, not_or]
    exact ⟨⟨hn.1.1, hlG'⟩, hbG', g2⟩

/-- A new variable that is given up. -/
theorem discard {m : List (Bytes × UV)} (h : Own U s l c F (.map m)) (o : HV) (hf : Fr (s.new o).2 s' ⟨s.mem.length, []⟩ [] c' F')
    (ho : Own U s' ⟨s.mem.length, []⟩ c' F' v') : Fr s s' l F c F ∧ Own U s' l c F (.map m) := by
  have hl := h.lt
  have hlen : (s.new o).2.mem.length = s.mem.length + 1 := by simp [UH.new]
  have same : ∀ a, a < s.mem.length → s'.mem[a]? = s.mem[a]? := by
    intro a ha
    rw [hf.out a (by omega) (by simp; omega) (by simp)]
    simp [UH.new, List.getElem?_append_left ha]
  have hge := hf.len
  refine ⟨⟨by omega, fun a ha _ _ => same a ha, by rw [memSet_self h.get]; exact same _ hl, fun b hb => Or.inl hb⟩, ?_, ?_, h.nodup, ho.inv⟩
  · unfold UH.get; rw [memGet_congr (same _ hl)]; exact h.get
  · exact rep_frame _ _ _ h.rep fun b hb => same b (rep_lt _ _ _ h.rep b hb)

/-! ### Arrays and dictionaries at other types -/

theorem arrInto_leafFn (P : UEnv) (xs : List J) (e : Ty → List UV → Option (List UV × Option UErr)) {t : Ty} (hn : ∀ t', t ≠ .ptr t') (hs : t.isSeq = false) :
    LeafFn P.defs t (arrInto P xs e t) where
  leaf := fun v hv => by
    unfold arrInto
    cases t <;> first | trivial | (exact absurd rfl (hn _)) | (simp only [uok, uerr]) | cases hs | skip
    · rename_i k; cases k <;> simp [uok, uerr, UV.Leaf]
    · rename_i k
      cases k <;> first | (simp [uok, uerr]; done) | skip
      cases v <;> first | trivial | (exact (show False from hv).elim) | skip
      rename_i j; cases j <;> simp [uok, uerr, UV.Leaf]
  nonleaf := fun v hv ht => by
    cases v with
    | ptr x => obtain ⟨t', rfl, _⟩ := ht; exact absurd rfl (hn _)
    | seq xs sp => obtain ⟨t', rfl, _⟩ := ht; cases hs
    | map kvs => obtain ⟨_, t', rfl | rfl, _⟩ := ht <;> exact ⟨.mismatch, rfl, _, rfl⟩
    | arr xs => obtain ⟨t', rfl, _⟩ := ht; cases hs
    | struct xs => obtain ⟨n, fs, rfl, _⟩ := ht; exact ⟨.mismatch, rfl, _, rfl⟩
    | _ => exact absurd trivial hv

theorem dictInto_leafFn (D : Defs) (id : Int) (kvs : SMap J) (e : Ty → SMap UV → Option (SMap UV × Option UErr)) (f : Nat → List UV → Option (List UV × List UErr))
    {t : Ty} (hn : ∀ t', t ≠ .ptr t') (hs : t.isStructOrMap = false) : LeafFn D t (dictInto id kvs e f t) where
  leaf := fun v hv => by
    unfold dictInto
    cases t <;> first | trivial | (exact absurd rfl (hn _)) | (simp only [uok, uerr]) | cases hs | skip
    · rename_i k; cases k <;> simp [uok, uerr, UV.Leaf]
    · rename_i k
      cases k <;> first | (simp [uok, uerr]; done) | skip
      cases v <;> first | trivial | (exact (show False from hv).elim) | skip
      rename_i j; cases j <;> simp [uok, uerr, UV.Leaf]
  nonleaf := fun v hv ht => by
    cases v with
    | ptr x => obtain ⟨t', rfl, _⟩ := ht; exact absurd rfl (hn _)
    | seq xs sp => obtain ⟨t', rfl, _⟩ := ht; exact ⟨.mismatch, rfl, _, rfl⟩
    | map kvs => obtain ⟨_, t', rfl | rfl, _⟩ := ht <;> cases hs
    | arr xs => obtain ⟨t', rfl, _⟩ := ht; exact ⟨.mismatch, rfl, _, rfl⟩
    | struct xs => obtain ⟨n, fs, rfl, _⟩ := ht; cases hs
    | _ => exact absurd trivial hv


/-! ### Documents -/

/-- The same outcome for the elements of an array: `done` before them, `rest` behind. -/
def RefL (U : Int → Prop) (s : UH) (l : Loc) (F : List Nat) (done rest : List UV) (r : HRes) (u : Option (List UV × Option UErr)) : Prop := match u with
  | none => r = none
  | some (vs', e) => ∃ s' c' F', r = some (s', e) ∧ Fr s s' l F c' F' ∧ Own U s' l c' F' (.arr (done ++ vs' ++ rest))

/-- The same outcome for the entries of a map. -/
def RefM (U : Int → Prop) (s : UH) (l : Loc) (c : HV) (F : List Nat) (r : HRes) (u : Option (SMap UV × Option UErr)) : Prop := match u with
  | none => r = none
  | some (m', e) => ∃ s' F', r = some (s', e) ∧ Fr s s' l F c F' ∧ Own U s' l c F' (.map m')

/-- The same outcome for the fields of a struct. -/
def RefF (U : Int → Prop) (s : UH) (l : Loc) (F : List Nat) (r : Option (UH × List UErr)) (u : Option (List UV × List UErr)) : Prop := match u with
  | none => r = none
  | some (vs', es) => ∃ s' c' F', r = some (s', es) ∧ Fr s s' l F c' F' ∧ Own U s' l c' F' (.struct vs')

theorem harr_ref (hP : P.Ok) (xs : List J)
    (hel : ∀ (t : Ty) (s : UH) (l : Loc) (c : HV) (F : List Nat) (vs rest : List UV), t.Valid P.defs → Own U s l c F (.arr (vs ++ rest)) → UV.HasTys P.defs vs t → vs.length = xs.length →
      RefL U s l F [] rest (J.hunms P xs t l 0 s) (J.unms P xs t vs))
    (hlen : ∀ t vs p, vs.length = xs.length → J.unms P xs t vs = some p → p.1.length = vs.length)
    {t : Ty} (hn : ∀ t', t ≠ .ptr t') (hv : t.Valid P.defs) (h : Own U s l c F v) (ht : v.HasTy P.defs t) :
    MRef U s l F (harr P xs (fun t l s => J.hunms P xs t l 0 s) t l s) (arrInto P xs (fun t vs => J.unms P xs t vs) t v) := by
  by_cases hseq : t.isSeq = true
  · cases t with
    | slice t =>
      obtain ⟨b, s1, cb, G, he, hg, hnd, hf, ho, hl⟩ := hresize_ref P t xs.length h ht
      obtain ⟨-, h1, h2⟩ := resize_hasTy (t := t) hP hv ht xs.length
      simp only [harr, he, arrInto]
      have h3 := hel t s1 ⟨b, []⟩ cb G _ _ hv ho ((hasTys_iff _).2 h1) hl
      cases hu : J.unms P xs t (P.resize t xs.length v).1 with
      | none => rw [hu] at h3; exact h3
      | some p =>
        obtain ⟨vs', e⟩ := p
        rw [hu] at h3
        obtain ⟨s2, c2, F2, g1, g2, g3⟩ := h3
        have hl' := hlen t _ _ hl hu
        obtain ⟨g4, g5⟩ := own_mkseq (xs := vs') (sp := (P.resize t xs.length v).2) hg hnd g2 g3 (by simpa [hl] using hl')
        exact ⟨s2, _, _, g1, hf.trans h.get g4, g5⟩
    | array n t =>
      cases v with
      | arr vs =>
        obtain ⟨t', he, h1⟩ := ht
        cases he
        simp only [harr, arrInto]
        split
        · exact MRef.same h
        · rename_i hne
          have h3 := hel t s l c F vs [] hv (by rw [List.append_nil]; exact h) h1 (by omega)
          cases hu : J.unms P xs t vs with
          | none => rw [hu] at h3; exact h3
          | some p =>
            obtain ⟨vs', e⟩ := p
            rw [hu] at h3
            obtain ⟨s2, c2, F2, g1, g2, g3⟩ := h3
            exact ⟨s2, _, _, g1, g2, by simpa using g3⟩
      | nil => exact (show False from ht).elim
      | int _ => exact (show False from ht).elim
      | json _ => exact (show False from ht).elim
      | ptr x => obtain ⟨t', h, _⟩ := ht; cases h
      | seq x y => obtain ⟨t', h, _⟩ := ht; cases h
      | struct x => obtain ⟨_, _, h, _⟩ := ht; cases h
      | map x => obtain ⟨_, _, h | h, _⟩ := ht <;> cases h
      | float _ => rcases ht with ⟨h, _⟩ | ⟨h, _⟩ <;> cases h
      | bool _ => exact nomatch ht
      | str _ => exact nomatch ht
      | any _ => exact nomatch ht
    | _ => cases hseq
  · have hs : t.isSeq = false := by simpa using hseq
    have e1 : harr P xs (fun t l s => J.hunms P xs t l 0 s) t l s = hstore (arrInto P xs (fun _ _ => none) t) l s := by
      cases t <;> first | rfl | cases hs
    have e2 : arrInto P xs (fun t vs => J.unms P xs t vs) t v = arrInto P xs (fun _ _ => none) t v := by
      cases t with
      | slice _ => cases hs
      | array _ _ => cases hs
      | jptr k => cases k <;> rfl
      | jval k =>
        cases k <;> first | rfl | skip
        cases v <;> first | rfl | skip
        rename_i j; cases j <;> rfl
      | _ => rfl
    rw [e1, e2]
    exact hstore_ref (arrInto_leafFn P xs _ hn hs) h ht

theorem hdict_ref (id : Int) (kvs : List (Bytes × J))
    (hm : ∀ (t : Ty) (s : UH) (l : Loc) (c : HV) (F : List Nat) (m : SMap UV), t.Valid P.defs → Own U s l c F (.map m) → RefM U s l c F (J.hunmm P kvs t l s) (J.unmm P kvs t m))
    (hf : ∀ (n : Nat) (fs : List (FInfo × Ty)) (s : UH) (l : Loc) (c : HV) (F : List Nat) (vs : List UV), P.defs[n]? = some fs → Own U s l c F (.struct vs) → UV.HasTyf P.defs vs fs →
      RefF U s l F (J.hunmf P kvs n l s) (J.unmf P kvs n vs))
    {t : Ty} (hn : ∀ t', t ≠ .ptr t') (hv : t.Valid P.defs) (h : Own U s l c F v) (ht : v.HasTy P.defs t) :
    MRef U s l F (hdict id kvs (fun t l s => J.hunmm P kvs t l s) (fun n l s => J.hunmf P kvs n l s) t l s)
      (dictInto id kvs (fun t m => J.unmm P kvs t m) (fun n vs => J.unmf P kvs n vs) t v) := by
  by_cases hseq : t.isStructOrMap = true
  · cases t with
    | map t =>
      obtain ⟨c1, F1, h1, h2⟩ := makeMap_ref (P := P) h (Or.inl ht)
      have h3 := hm t _ l c1 F1 _ hv h2
      simp only [hdict, dictInto]
      cases hu : J.unmm P kvs t v.entries with
      | none => rw [hu] at h3; exact h3
      | some p =>
        obtain ⟨m', e⟩ := p
        rw [hu] at h3
        obtain ⟨s2, F2, g1, g2, g3⟩ := h3
        exact ⟨s2, _, _, g1, h1.trans h.get g2, g3⟩
    | mapOther t =>
      obtain ⟨c1, F1, h1, h2⟩ := makeMap_ref (P := P) h (Or.inr ht)
      exact ⟨_, _, _, rfl, h1, h2⟩
    | struct n =>
      cases v with
      | struct vs =>
        obtain ⟨n', fs, he, hn', h1⟩ := ht
        cases he
        have h3 := hf n fs s l c F vs hn' h h1
        simp only [hdict, dictInto]
        cases hu : J.unmf P kvs n vs with
        | none =>
          rw [hu] at h3
          rw [show J.hunmf P kvs n l s = none from h3]
          rfl
        | some p =>
          obtain ⟨m', e⟩ := p
          rw [hu] at h3
          obtain ⟨s2, c2, F2, g1, g2, g3⟩ := h3
          rw [g1]
          exact ⟨s2, _, _, rfl, g2, g3⟩
      | nil => exact (show False from ht).elim
      | int _ => exact (show False from ht).elim
      | json _ => exact (show False from ht).elim
      | ptr x => obtain ⟨t', h, _⟩ := ht; cases h
      | seq x y => obtain ⟨t', h, _⟩ := ht; cases h
      | arr x => obtain ⟨_, h, _⟩ := ht; cases h
      | map x => obtain ⟨_, _, h | h, _⟩ := ht <;> cases h
      | float _ => rcases ht with ⟨h, _⟩ | ⟨h, _⟩ <;> cases h
      | bool _ => exact nomatch ht
      | str _ => exact nomatch ht
      | any _ => exact nomatch ht
    | _ => cases hseq
  · have hs : t.isStructOrMap = false := by simpa using hseq
    have e1 : hdict id kvs (fun t l s => J.hunmm P kvs t l s) (fun n l s => J.hunmf P kvs n l s) t l s = hstore (dictInto id kvs (fun _ _ => none) (fun _ _ => none) t) l s := by
      cases t <;> first | rfl | cases hs
    have e2 : dictInto id kvs (fun t m => J.unmm P kvs t m) (fun n vs => J.unmf P kvs n vs) t v = dictInto id kvs (fun _ _ => none) (fun _ _ => none) t v := by
      cases t with
      | map _ => cases hs
      | mapOther _ => cases hs
      | struct _ => cases hs
      | jptr k => cases k <;> rfl
      | jval k =>
        cases k <;> first | rfl | skip
        cases v <;> first | rfl | skip
        rename_i j; cases j <;> rfl
      | _ => rfl
    rw [e1, e2]
    exact hstore_ref (dictInto_leafFn _ id kvs _ _ hn hs) h ht

theorem unms_length : ∀ (js : List J) (t : Ty) (vs : List UV) (p : List UV × Option UErr), J.unms P js t vs = some p → p.1.length = vs.length
  | [], t, vs, p, h => by simp only [J.unms, Option.some.injEq] at h; rw [← h]
  | j :: js, t, [], p, h => by simp [J.unms] at h
  | j :: js, t, v :: vs, p, h => by
    simp only [J.unms] at h
    split at h
    · cases h
    · cases h; simp
    · cases hq : J.unms P js t vs with
      | none => rw [hq] at h; cases h
      | some q =>
        rw [hq] at h
        simp only [Option.map_some, Option.some.injEq] at h
        rw [← h]
        simp [unms_length js t vs q hq]

mutual
theorem hunm_ref (hP : P.Ok) : ∀ (j : J), j.WF → EvOk U j.events → ∀ (t : Ty) (s : UH) (l : Loc) (c : HV) (F : List Nat) (v : UV), t.Valid P.defs →
    Own U s l c F v → v.HasTy P.defs t → MRef U s l F (j.hunm P t l s) (j.unm P t v)
  | .null, _, _, t, s, l, c, F, v, _, h, _ => by
    obtain ⟨h1, h2⟩ := own_leaf h (c' := P.hzero t) (rep_zero P t _)
    exact ⟨_, _, _, rfl, h1, h2⟩
  | .ptr id, _, he, t, s, l, c, F, v, _, h, _ => by
    obtain ⟨s', h1, h2, h3⟩ := refer_ref (l := l) (t := t) ((he id).1 (by simp [J.events])) h.inv
    obtain ⟨h4, h5⟩ := own_sess h h2 h3
    refine ⟨s', _, _, ?_, h4, h5⟩
    simp only [J.hunm, h1, Option.map_some]
  | .int n, _, _, t, s, l, c, F, v, hv, h, ht => scalar_ref hP (fun _ _ => rfl) (fun _ hn => unmInt_leafFn _ n hn) hv h ht
  | .bool b, _, _, t, s, l, c, F, v, hv, h, ht => scalar_ref hP (fun _ _ => rfl) (fun _ hn => unmBool_leafFn _ b hn) hv h ht
  | .float y bit, _, _, t, s, l, c, F, v, hv, h, ht => scalar_ref hP (fun _ _ => rfl) (fun _ hn => unmFloat_leafFn _ P y bit hn) hv h ht
  | .str str, _, _, t, s, l, c, F, v, hv, h, ht => text_ref hP str hv h ht
  | .arr xs, hw, he, t, s, l, c, F, v, hv, h, ht => by
    obtain ⟨c1, F1, h1, h2⟩ := halloc_ref P t h
    have hal := alloc_hasTy hP t v hv ht
    have core : ∀ (t : Ty) (s : UH) (l : Loc) (c : HV) (F : List Nat) (v : UV), (∀ t', t ≠ .ptr t') → t.Valid P.defs → Own U s l c F v → v.HasTy P.defs t →
        MRef U s l F (harr P xs (fun t l s => J.hunms P xs t l 0 s) t l s) (arrInto P xs (fun t vs => J.unms P xs t vs) t v) := by
      intro t s l c F v hn hv h ht
      refine harr_ref hP xs ?_ (fun t vs p _ => unms_length xs t vs p) hn hv h ht
      intro t s l c F vs rest hv h ht hl
      exact hunms_ref hP xs hw he t s l c F [] vs rest hv h ht hl
    by_cases hp : ∃ t', t = .ptr t'
    · obtain ⟨t', rfl⟩ := hp
      obtain ⟨x, hx, hax⟩ := alloc_alloced P (.ptr t') v
      rw [hx] at h2 hal
      obtain ⟨l', c', G, rfl, rfl, hox, hn⟩ := h2.deref
      simp only [J.hunm, J.unm, hx]
      split
      · rename_i hseq
        rw [h2.get]
        exact MRef.after h.get h1 (MRef.ptr h2.get hn (core t' _ l' c' G x (by intro t'' e; subst e; cases hseq) hv hox (hasTy_ptr hal)))
      · exact ⟨_, _, _, rfl, h1, h2⟩
    · have e1 : (J.arr xs).hunm P t l s = harr P xs (fun t l s => J.hunms P xs t l 0 s) t l (P.halloc t l s) := by
        cases t <;> first | rfl | exact absurd ⟨_, rfl⟩ hp
      have e2 : (J.arr xs).unm P t v = arrInto P xs (fun t vs => J.unms P xs t vs) t (P.alloc t v) := by
        cases t <;> first | (simp only [J.unm]; done) | exact absurd ⟨_, rfl⟩ hp
      rw [e1, e2]
      exact MRef.after h.get h1 (core t _ l c1 F1 _ (fun t' e => hp ⟨t', e⟩) hv h2 hal)
  | .dict id kvs, hw, he, t, s, l, c, F, v, hv, h, ht => by
    have hid : 0 < id → ¬ U id := fun h0 => (he id).2 (by simp [J.events, h0])
    have heK : EvOk U (J.eventsf kvs) := by
      have : (J.dict id kvs).events = (if 0 < id then [.defn id] else []) ++ J.eventsf kvs := by simp [J.events]
      rw [this] at he
      exact he.right
    have core : ∀ (t : Ty) (s : UH) (l : Loc) (c : HV) (F : List Nat) (v : UV), (∀ t', t ≠ .ptr t') → t.Valid P.defs → Own U s l c F v → v.HasTy P.defs t →
        MRef U s l F (hdict id kvs (fun t l s => J.hunmm P kvs t l s) (fun n l s => J.hunmf P kvs n l s) t l s)
          (dictInto id kvs (fun t m => J.unmm P kvs t m) (fun n vs => J.unmf P kvs n vs) t v) := by
      intro t s l c F v hn hv h ht
      refine hdict_ref id kvs ?_ ?_ hn hv h ht
      · intro t s l c F m hv h
        exact hunmm_ref hP kvs hw.2 heK t s l c F m hv h
      · intro n fs s l c F vs hn' h ht
        exact hunmf_ref hP kvs hw.2 heK n fs s l c F vs hn' h ht
    obtain ⟨s0, hs0, hm0, hi0⟩ := saveNode_ref (p := (l, t)) hid h.inv
    obtain ⟨hf0, ho0⟩ := own_sess h hm0 hi0
    obtain ⟨c1, F1, h1, h2⟩ := halloc_ref P t ho0
    have hal := alloc_hasTy hP t v hv ht
    by_cases hp : ∃ t', t = .ptr t'
    · obtain ⟨t', rfl⟩ := hp
      obtain ⟨x, hx, hax⟩ := alloc_alloced P (.ptr t') v
      rw [hx] at h2 hal
      obtain ⟨l', c', G, rfl, rfl, hox, hn⟩ := h2.deref
      simp only [J.hunm, J.unm, hx, hs0]
      split
      · rename_i hseq
        obtain ⟨s2, hs2, hm2, hi2⟩ := saveNode_ref (p := (l', t')) hid h2.inv
        obtain ⟨hf2, ho2⟩ := own_sess hox hm2 hi2
        rw [h2.get]
        simp only [hs2]
        refine MRef.after h.get (hf0.trans h.get h1) (MRef.ptr h2.get hn ?_)
        exact MRef.after hox.get hf2 (core t' _ l' c' G x (by intro t'' e; subst e; cases hseq) hv ho2 (hasTy_ptr hal))
      · exact ⟨_, _, _, rfl, hf0.trans h.get h1, h2⟩
    · have e1 : (J.dict id kvs).hunm P t l s = hdict id kvs (fun t l s => J.hunmm P kvs t l s) (fun n l s => J.hunmf P kvs n l s) t l (P.halloc t l s0) := by
        cases t <;> first | (simp only [J.hunm, hs0]; done) | exact absurd ⟨_, rfl⟩ hp
      have e2 : (J.dict id kvs).unm P t v = dictInto id kvs (fun t m => J.unmm P kvs t m) (fun n vs => J.unmf P kvs n vs) t (P.alloc t v) := by
        cases t <;> first | (simp only [J.unm]; done) | exact absurd ⟨_, rfl⟩ hp
      rw [e1, e2]
      exact MRef.after h.get (hf0.trans h.get h1) (core t _ l c1 F1 _ (fun t' e => hp ⟨t', e⟩) hv h2 hal)
theorem hunms_ref (hP : P.Ok) : ∀ (js : List J), J.WFs js → EvOk U (J.eventss js) → ∀ (t : Ty) (s : UH) (l : Loc) (c : HV) (F : List Nat) (done vs rest : List UV), t.Valid P.defs →
    Own U s l c F (.arr (done ++ vs ++ rest)) → UV.HasTys P.defs vs t → vs.length = js.length →
    RefL U s l F done rest (J.hunms P js t l done.length s) (J.unms P js t vs)
  | [], _, _, t, s, l, c, F, done, vs, rest, _, h, _, _ => by
    simp only [J.unms, J.hunms]
    exact ⟨s, c, F, rfl, Fr.refl h.get F, h⟩
  | j :: js, _, _, t, s, l, c, F, done, [], rest, _, _, _, hl => by simp at hl
  | j :: js, hw, he, t, s, l, c, F, done, x :: vs, rest, hv, h, ht, hl => by
    obtain ⟨y, G, ho, hup⟩ := own_comp (k := true) (xs := done ++ (x :: vs) ++ rest) h (i := done.length) (x := x) (by simp)
    have heq : J.eventss (j :: js) = j.events ++ J.eventss js := by simp [J.eventss]
    rw [heq] at he
    have h1 := hunm_ref hP j hw.1 he.left t s (l.sub done.length) y G x hv ho ht.1
    have hfine := (unm_fine (S := False) hP j hw.1 t x hv ht.1 (fun h => h.elim)).2
    simp only [J.unms, J.hunms]
    cases hu : j.unm P t x with
    | none =>
      rw [hu] at h1
      rw [show j.hunm P t (l.sub done.length) s = none from h1]
      rfl
    | some q =>
      obtain ⟨x', e⟩ := q
      rw [hu] at h1
      obtain ⟨s1, y', G', h2, h3, h4⟩ := h1
      obtain ⟨c1, F1, h5, h6⟩ := hup _ _ _ _ h3 h4
      have hset : (done ++ (x :: vs) ++ rest).set done.length x' = done ++ (x' :: vs) ++ rest := by simp
      rw [hset] at h6
      rw [h2]
      cases e with
      | some e => exact ⟨s1, c1, F1, rfl, h5, h6⟩
      | none =>
        simp only
        have h6' : Own U s1 l c1 F1 (.arr ((done ++ [x']) ++ vs ++ rest)) := by simpa [wrapV] using h6
        have ih := hunms_ref hP js hw.2 he.right t s1 l c1 F1 (done ++ [x']) vs rest hv h6' ht.2 (by simpa using hl)
        rw [List.length_append, List.length_singleton] at ih
        cases hq : J.unms P js t vs with
        | none => rw [hq] at ih; exact ih
        | some q =>
          obtain ⟨vs', e⟩ := q
          rw [hq] at ih
          obtain ⟨s2, c2, F2, g1, g2, g3⟩ := ih
          exact ⟨s2, c2, F2, g1, h5.trans h.get g2, by simpa using g3⟩
theorem hunmm_ref (hP : P.Ok) : ∀ (kvs : List (Bytes × J)), J.WFf kvs → EvOk U (J.eventsf kvs) → ∀ (t : Ty) (s : UH) (l : Loc) (c : HV) (F : List Nat) (m : SMap UV), t.Valid P.defs →
    Own U s l c F (.map m) → RefM U s l c F (J.hunmm P kvs t l s) (J.unmm P kvs t m)
  | [], _, _, t, s, l, c, F, m, _, h => by
    simp only [J.unmm, J.hunmm]
    exact ⟨s, F, rfl, Fr.refl h.get F, h⟩
  | (k, j) :: r, hw, he, t, s, l, c, F, m, hv, h => by
    have heq : J.eventsf ((k, j) :: r) = j.events ++ J.eventsf r := by simp [J.eventsf]
    rw [heq] at he
    have hon : Own U (s.new (P.hzero t)).2 ⟨s.mem.length, []⟩ (P.hzero t) [] (P.zero t) :=
      ⟨by unfold UH.get; rw [memGet_obj]; simp [UH.new], rep_zero P t _, by simp, h.inv⟩
    have h1 := hunm_ref hP j hw.1 he.left t _ _ _ _ _ hv hon (zero_hasTy hP t hv)
    simp only [J.unmm, J.hunmm]
    cases hu : j.unm P t (P.zero t) with
    | none =>
      rw [hu] at h1
      have h1 : j.hunm P t ⟨s.mem.length, []⟩ (s.new (P.hzero t)).2 = none := h1
      rw [show s.new (P.hzero t) = (s.mem.length, (s.new (P.hzero t)).2) from rfl]
      simp only [h1]
      rfl
    | some q =>
      obtain ⟨x', e⟩ := q
      rw [hu] at h1
      obtain ⟨s1, y', G', h2, h3, h4⟩ := h1
      rw [show s.new (P.hzero t) = (s.mem.length, (s.new (P.hzero t)).2) from rfl]
      simp only [h2]
      cases e with
      | some e =>
        obtain ⟨hf, ho⟩ := discard h (P.hzero t) h3 h4
        exact ⟨s1, F, rfl, hf, ho⟩
      | none =>
        obtain ⟨s2, F2, h5, h6, h7⟩ := setMapIndex_ref h (P.hzero t) (k := k) h3 h4
        simp only [h5]
        have ih := hunmm_ref hP r hw.2 he.right t s2 l c F2 _ hv h7
        cases hq : J.unmm P r t (smAdd m k x') with
        | none => rw [hq] at ih; exact ih
        | some q =>
          obtain ⟨m', e⟩ := q
          rw [hq] at ih
          obtain ⟨s3, F3, g1, g2, g3⟩ := ih
          exact ⟨s3, F3, g1, h6.trans h.get g2, g3⟩
theorem hunmf_ref (hP : P.Ok) : ∀ (kvs : List (Bytes × J)), J.WFf kvs → EvOk U (J.eventsf kvs) → ∀ (n : Nat) (fs : List (FInfo × Ty)) (s : UH) (l : Loc) (c : HV) (F : List Nat) (vs : List UV),
    P.defs[n]? = some fs → Own U s l c F (.struct vs) → UV.HasTyf P.defs vs fs → RefF U s l F (J.hunmf P kvs n l s) (J.unmf P kvs n vs)
  | [], _, _, n, fs, s, l, c, F, vs, _, h, _ => by
    simp only [J.unmf, J.hunmf]
    exact ⟨s, c, F, rfl, Fr.refl h.get F, h⟩
  | (k, j) :: r, hw, he, n, fs, s, l, c, F, vs, hn, h, ht => by
    have heq : J.eventsf ((k, j) :: r) = j.events ++ J.eventsf r := by simp [J.eventsf]
    rw [heq] at he
    have hgetD : P.defs.getD n [] = fs := by simp [List.getD_eq_getElem?_getD, hn]
    have h1 := hsetKey_ref (U := U) (l := l) (D := P.defs) (tys := fs) (idx := P.idx n) (assign := fun t v => J.unm P j t v) (hassign := fun t l s => J.hunm P j t l s)
      (fun info t v hmem hvt => unm_fine hP j hw.1 t v (hP.2.1 n fs hn info t hmem) hvt (fun h => h.elim))
      (fun info t s l c F v hmem ho hvt => hunm_ref hP j hw.1 he.left t s l c F v (hP.2.1 n fs hn info t hmem) ho hvt) (fs.length + 2) k [] s c F vs h ht
    simp only [J.unmf, J.hunmf, hgetD]
    cases hu : setKey (P.idx n) fs (fun t v => J.unm P j t v) (fs.length + 2) k [] vs with
    | none =>
      rw [hu] at h1
      rw [show hsetKey (P.idx n) fs l (fun t l s => J.hunm P j t l s) (fs.length + 2) k [] s = none from h1]
      rfl
    | some q =>
      obtain ⟨vs', vis, e⟩ := q
      rw [hu] at h1
      obtain ⟨h0, s1, c1, F1, h2, h3, h4⟩ := h1
      rw [h2]
      simp only
      have ih := hunmf_ref hP r hw.2 he.right n fs s1 l c1 F1 vs' hn h4 h0
      cases hq : J.unmf P r n vs' with
      | none =>
        rw [hq] at ih
        rw [show J.hunmf P r n l s1 = none from ih]
        rfl
      | some q =>
        obtain ⟨vs2, es⟩ := q
        rw [hq] at ih
        obtain ⟨s2, c2, F2, g1, g2, g3⟩ := ih
        rw [g1]
        exact ⟨s2, c2, F2, rfl, h3.trans h.get g2, g3⟩
end

end Jsonutils
