import Verif.Proofs.MemTop

/-! # `Unmarshal` in memory: existing pointers, maps and arrays stay in place -/

namespace Jsonutils

variable {U : Int → Prop} {s s' : UH} {l l' : Loc} {c c' : HV} {F F' G : List Nat} {v x : UV} {P : UEnv} {e : Option UErr}

/-- What happens at `l'` does not change `l`. -/
theorem Fr.other (h : Fr s s' l' G c' F') (hg : s.get l = some c) (hn : (l.base :: l'.base :: G).Nodup) : s'.get l = some c := by
  obtain ⟨h1, h2, h3⟩ : l.base ≠ l'.base ∧ l.base ∉ G ∧ True := by
    simp only [List.nodup_cons, List.mem_cons, not_or] at hn
    exact ⟨hn.1.1, hn.1.2, trivial⟩
  unfold UH.get at hg ⊢
  rw [memGet_congr (h.out _ (memGet_lt hg) h1 h2)]
  exact hg

theorem MRef.other {r : HRes} {u : URes} (h : MRef U s l' G r u) (hg : s.get l = some c) (hn : (l.base :: l'.base :: G).Nodup) (hr : r = some (s', e)) : s'.get l = some c := by
  match u, h with
  | none, h => rw [show r = none from h] at hr; cases hr
  | some (v', e'), ⟨s2, c2, F2, h1, h2, _⟩ =>
    rw [h1] at hr
    cases hr
    exact h2.other hg hn

theorem halloc_through (t : Ty) (hg : s.get l = some (.ptr l')) : P.halloc (.ptr t) l s = P.halloc t l' s := by
  simp only [UEnv.halloc, hg]

theorem halloc_structOrMap {t : Ty} (hs : t.isStructOrMap = true) (l : Loc) (s : UH) : P.halloc t l s = s := by
  cases t <;> first | rfl | cases hs

theorem hunm_keep_ptr (hP : P.Ok) {j : J} (hw : j.WF) (he : EvOk U j.events) (hj : j ≠ .null) (hr : ∀ id, j ≠ .ptr id) {t : Ty} (hv : t.Valid P.defs)
    (h : Own U s l (.ptr l') F v) (ht : v.HasTy P.defs (.ptr t)) (hu : j.hunm P (.ptr t) l s = some (s', e)) : s'.get l = some (.ptr l') := by
  obtain ⟨x, rfl⟩ := rep_not_ptr h.rep
  obtain ⟨l2, c2, G, e1, rfl, ho, hn⟩ := h.deref
  cases e1
  have hx := hasTy_ptr ht
  have hA : ∀ s2, s2 = P.halloc t l' s → s2.get l = some (.ptr l') ∧ ∃ c3 G3, Own U s2 l' c3 G3 (P.alloc t x) ∧ (l.base :: l'.base :: G3).Nodup := by
    rintro _ rfl
    obtain ⟨c3, G3, h1, h2⟩ := halloc_ref P t ho
    exact ⟨h1.other h.get hn, c3, G3, h2, Fr.lift_nodup h.get hn h1 h2.nodup⟩
  cases j with
  | null => exact absurd rfl hj
  | ptr id => exact absurd rfl (hr id)
  | int n =>
    have hu : hscalar (unmInt n) (.ptr t) l (P.halloc (.ptr t) l s) = some (s', e) := hu
    rw [halloc_through t h.get, hscalar, (hA _ rfl).1] at hu
    exact (scalar_ref hP (fun _ _ => rfl) (fun _ hn => unmInt_leafFn _ n hn) hv ho hx).other h.get hn hu
  | bool n =>
    have hu : hscalar (unmBool n) (.ptr t) l (P.halloc (.ptr t) l s) = some (s', e) := hu
    rw [halloc_through t h.get, hscalar, (hA _ rfl).1] at hu
    exact (scalar_ref hP (fun _ _ => rfl) (fun _ hn => unmBool_leafFn _ n hn) hv ho hx).other h.get hn hu
  | float y bit =>
    have hu : hscalar (unmFloat P y bit) (.ptr t) l (P.halloc (.ptr t) l s) = some (s', e) := hu
    rw [halloc_through t h.get, hscalar, (hA _ rfl).1] at hu
    exact (scalar_ref hP (fun _ _ => rfl) (fun _ hn => unmFloat_leafFn _ P y bit hn) hv ho hx).other h.get hn hu
  | str str =>
    have hu : hstr P str (.ptr t) l (P.halloc (.ptr t) l s) = some (s', e) := hu
    rw [halloc_through t h.get, hstr, (hA _ rfl).1] at hu
    exact (text_ref hP str hv ho hx).other h.get hn hu
  | arr xs =>
    simp only [J.hunm, halloc_through t h.get, (hA _ rfl).1] at hu
    split at hu
    · rename_i hs
      have hnp : ∀ t', t ≠ .ptr t' := by rintro t' rfl; cases hs
      have e1 : (J.arr xs).hunm P t l' s = harr P xs (fun t l s => J.hunms P xs t l 0 s) t l' (P.halloc t l' s) := by
        cases t <;> first | rfl | exact absurd rfl (hnp _)
      rw [← e1] at hu
      exact (hunm_ref hP (.arr xs) hw he t s l' c2 G x hv ho hx).other h.get hn hu
    · cases hu
      exact (hA _ rfl).1
  | dict id kvs =>
    have hid : 0 < id → ¬ U id := fun h0 => (he id).2 (by simp [J.events, h0])
    obtain ⟨s0, hs0, hm0, hi0⟩ := saveNode_ref (p := (l, .ptr t)) hid h.inv
    obtain ⟨hf0, ho0⟩ := own_sess ho hm0 hi0
    have hg0 : s0.get l = some (.ptr l') := by unfold UH.get; rw [hm0]; exact h.get
    have hA0 : (P.halloc t l' s0).get l = some (.ptr l') := by
      obtain ⟨c3, G3, h1, h2⟩ := halloc_ref P t ho0
      exact h1.other hg0 hn
    simp only [J.hunm, hs0, halloc_through t hg0, hA0] at hu
    split at hu
    · rename_i hs
      obtain ⟨s2, hs2, -, -⟩ := saveNode_ref (p := (l', t)) hid ho0.inv
      have e1 : (J.dict id kvs).hunm P t l' s0 = hdict id kvs (fun t l s => J.hunmm P kvs t l s) (fun n l s => J.hunmf P kvs n l s) t l' s2 := by
        cases t <;> first | (simp only [J.hunm, hs2, UEnv.halloc]; done) | (exfalso; revert hs; decide) | cases hs
      rw [halloc_structOrMap hs] at hu
      simp only [hs2] at hu
      rw [← e1] at hu
      exact (hunm_ref hP (.dict id kvs) hw he t s0 l' c2 G x hv ho0 hx).other hg0 hn hu
    · cases hu
      exact hA0

theorem hunm_keep_map (hP : P.Ok) {id : Int} {kvs : SMap J} (hw : (J.dict id kvs).WF) (he : EvOk U (J.dict id kvs).events) {t : Ty} (hv : t.Valid P.defs) {b : Nat}
    (h : Own U s l (.map b) F v) (ht : v.HasTy P.defs (.map t)) (hu : (J.dict id kvs).hunm P (.map t) l s = some (s', e)) : s'.get l = some (.map b) := by
  have hid : 0 < id → ¬ U id := fun h0 => (he id).2 (by simp [J.events, h0])
  have heK : EvOk U (J.eventsf kvs) := by
    have : (J.dict id kvs).events = (if 0 < id then [.defn id] else []) ++ J.eventsf kvs := by simp [J.events]
    rw [this] at he
    exact he.right
  obtain ⟨s0, hs0, hm0, hi0⟩ := saveNode_ref (p := (l, .map t)) hid h.inv
  obtain ⟨hf0, ho0⟩ := own_sess h hm0 hi0
  have hmk : s0.makeMap l = s0 := by unfold UH.makeMap; rw [ho0.get]
  obtain ⟨c1, F1, h1, h2⟩ := makeMap_ref (P := P) ho0 (Or.inl ht)
  rw [hmk] at h2
  have hc : c1 = .map b := by have := h2.get; rw [ho0.get] at this; cases this; rfl
  subst hc
  have h3 := hunmm_ref hP kvs hw.2 heK t s0 l _ F1 _ hv h2
  have hu : J.hunmm P kvs t l s0 = some (s', e) := by
    have e1 : (J.dict id kvs).hunm P (.map t) l s = J.hunmm P kvs t l (s0.makeMap l) := by simp only [J.hunm, hs0, UEnv.halloc, hdict]
    rw [e1, hmk] at hu
    exact hu
  unfold RefM at h3
  split at h3
  · rw [h3] at hu; cases hu
  · obtain ⟨s2, F2, g1, g2, g3⟩ := h3
    rw [g1] at hu
    cases hu
    exact g3.get

theorem hunm_keep_slice (hP : P.Ok) {xs : List J} (hw : (J.arr xs).WF) (he : EvOk U (J.arr xs).events) {t : Ty} (hv : t.Valid P.defs) {b n : Nat} {ys : List HV}
    (h : Own U s l (.seq b n) F v) (ht : v.HasTy P.defs (.slice t)) (hb : s.mem[b]? = some (.arr ys)) (hc : xs.length ≤ ys.length)
    (hu : (J.arr xs).hunm P (.slice t) l s = some (s', e)) : s'.get l = some (.seq b xs.length) := by
  obtain ⟨b', s1, cb, G, h1, hg, hnd, hf, ho, hl⟩ := hresize_ref P t xs.length h ht
  have hbb : b' = b := by
    have : P.hresize t xs.length l s = (b, s.set l (.seq b xs.length)) := by
      simp only [UEnv.hresize, h.get, UH.cap, hb, Nat.not_lt.2 hc, if_false]
    rw [this] at h1
    cases h1; rfl
  subst hbb
  obtain ⟨-, h2, h3⟩ := resize_hasTy (t := t) hP hv ht xs.length
  have hw : J.WFs xs := hw
  have he : EvOk U (J.eventss xs) := by simpa [J.events] using he
  have h4 := hunms_ref hP xs hw he t s1 ⟨b', []⟩ cb G [] _ _ hv ho ((hasTys_iff _).2 h2) hl
  have hu : J.hunms P xs t ⟨b', []⟩ 0 s1 = some (s', e) := by
    have e1 : (J.arr xs).hunm P (.slice t) l s = J.hunms P xs t ⟨b', []⟩ 0 s1 := by simp only [J.hunm, UEnv.halloc, harr, h1]
    rw [e1] at hu
    exact hu
  unfold RefL at h4
  split at h4
  · rw [show J.hunms P xs t ⟨b', []⟩ 0 s1 = none from h4] at hu; cases hu
  · obtain ⟨s2, c2, F2, g1, g2, g3⟩ := h4
    rw [show J.hunms P xs t ⟨b', []⟩ 0 s1 = _ from g1] at hu
    cases hu
    exact g2.other hg hnd

theorem selects_run {j d : J} {t : Ty} {M M' : List HV} {keys : List Bytes} (hw : j.WF) (hs : Selects j keys d) (hd : d.Rootable) (h : j.hunmarshal P keys t l M = some (M', e)) :
    d.WF ∧ (∀ e ∈ d.events, e ∈ j.events) ∧ ∃ s, d.hunm P t l ⟨M, fun _ => none⟩ = some (s, e) ∧ s.mem = M' := by
  have fin : ∀ r : HRes, (r.map fun r => (r.1.mem, r.2)) = some (M', e) → ∃ s, r = some (s, e) ∧ s.mem = M' := by
    intro r hr
    simp only [Option.map_eq_some_iff] at hr
    obtain ⟨⟨s, e'⟩, h1, h2⟩ := hr
    cases h2
    exact ⟨s, h1, rfl⟩
  rcases hs with ⟨rfl, rfl⟩ | ⟨hk, hg⟩
  · refine ⟨hw, fun _ h => h, fin _ ?_⟩
    cases d with
    | str x => exact h
    | arr x => exact h
    | dict x y => exact h
    | _ => exact (show False from hd).elim
  · obtain ⟨h1, h2⟩ := get_sub hw hg
    refine ⟨h1, h2, fin _ ?_⟩
    cases keys with
    | nil => exact absurd rfl hk
    | cons k ks => simp only [J.hunmarshal, hg] at h; exact h

end Jsonutils
