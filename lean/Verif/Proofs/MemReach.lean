import Verif.Spec.Memory
import Verif.Proofs.GraphMem

/-! # `Unmarshal` writes only what the target reaches -/

namespace Jsonutils

/-! ### What contents refer to -/

theorem mem_refss {xs : List HV} {b : Nat} : b ∈ HV.refss xs ↔ ∃ x ∈ xs, b ∈ x.refs := by
  induction xs with
  | nil => simp [HV.refss]
  | cons x xs ih => simp [HV.refss, ih]

theorem mem_refsm {xs : List (Bytes × HV)} {b : Nat} : b ∈ HV.refsm xs ↔ ∃ x ∈ xs, b ∈ x.2.refs := by
  induction xs with
  | nil => simp [HV.refsm]
  | cons x xs ih => obtain ⟨k, x⟩ := x; simp [HV.refsm, ih]

theorem child_refs {v c : HV} {i : Nat} (h : v.child i = some c) {b : Nat} (hb : b ∈ c.refs) : b ∈ v.refs := by
  cases v with
  | arr xs => exact mem_refss.2 ⟨c, List.mem_of_getElem? h, hb⟩
  | struct xs => exact mem_refss.2 ⟨c, List.mem_of_getElem? h, hb⟩
  | _ => cases h

theorem at_refs {v c : HV} {p : List Nat} (h : v.at p = some c) {b : Nat} (hb : b ∈ c.refs) : b ∈ v.refs := by
  induction p generalizing v with
  | nil => simp only [HV.at, Option.some.injEq] at h; rw [h]; exact hb
  | cons i p ih =>
    simp only [HV.at] at h
    cases hc : v.child i with
    | none => rw [hc] at h; cases h
    | some d => rw [hc] at h; exact child_refs hc (ih h)

theorem set_refss {xs : List HV} {i : Nat} {c : HV} {b : Nat} (h : b ∈ HV.refss (xs.set i c)) : b ∈ HV.refss xs ∨ b ∈ c.refs := by
  obtain ⟨x, hx, hb⟩ := mem_refss.1 h
  rcases List.mem_or_eq_of_mem_set hx with h1 | h1
  · exact Or.inl (mem_refss.2 ⟨x, h1, hb⟩)
  · exact Or.inr (h1 ▸ hb)

theorem setChild_refs {v c : HV} {i : Nat} {b : Nat} (h : b ∈ (v.setChild i c).refs) : b ∈ v.refs ∨ b ∈ c.refs := by
  cases v with
  | arr xs => exact set_refss h
  | struct xs => exact set_refss h
  | _ => exact Or.inl h

theorem put_refs {v w : HV} {p : List Nat} {b : Nat} (h : b ∈ (v.put p w).refs) : b ∈ v.refs ∨ b ∈ w.refs := by
  induction p generalizing v with
  | nil => exact Or.inr h
  | cons i p ih =>
    simp only [HV.put] at h
    cases hc : v.child i with
    | none => rw [hc] at h; exact Or.inl h
    | some d =>
      rw [hc] at h
      rcases setChild_refs h with h1 | h1
      · exact Or.inl h1
      · rcases ih h1 with h2 | h2
        · exact Or.inl (child_refs hc h2)
        · exact Or.inr h2

mutual
theorem inline_refs : ∀ v : UV, v.inline.refs = []
  | .struct vs => inlines_refs vs
  | .arr vs => inlines_refs vs
  | .ptr _ => rfl
  | .seq _ _ => rfl
  | .map _ => rfl
  | .nil => rfl
  | .bool _ => rfl
  | .int _ => rfl
  | .float _ => rfl
  | .str _ => rfl
  | .any _ => rfl
  | .json _ => rfl
theorem inlines_refs : ∀ vs : List UV, HV.refss (UV.inlines vs) = []
  | [] => rfl
  | v :: vs => by simp only [UV.inlines, HV.refss, inline_refs v, inlines_refs vs, List.append_nil]
end

theorem hzero_refs (P : UEnv) (t : Ty) : (P.hzero t).refs = [] := inline_refs _

theorem smAdd_refsm {m : List (Bytes × HV)} {k : Bytes} {c : HV} {b : Nat} (h : b ∈ HV.refsm (smAdd m k c)) : b ∈ HV.refsm m ∨ b ∈ c.refs := by
  induction m with
  | nil => simpa [smAdd, HV.refsm] using h
  | cons p m ih =>
    obtain ⟨k', x⟩ := p
    simp only [smAdd] at h
    split at h
    · simp only [HV.refsm, List.mem_append] at h ⊢
      rcases h with h | h
      · exact Or.inl (Or.inl h)
      · exact (ih h).imp Or.inr id
    · split at h
      · simp only [HV.refsm, List.mem_append] at h ⊢
        rcases h with h | h
        · exact Or.inr h
        · exact Or.inl (Or.inr h)
      · simp only [HV.refsm, List.mem_append] at h ⊢
        rcases h with h | h | h
        · exact Or.inr h
        · exact Or.inl (Or.inl h)
        · exact Or.inl (Or.inr h)

/-! ### Confined to a set of objects -/

/-- The state is confined to the set `S` of objects: it has no way out of `S`, and outside nothing has changed. -/
structure Conf (S : Nat → Prop) (M : List HV) (s : UH) : Prop where
  closed : ∀ a o, S a → s.mem[a]? = some o → ∀ b ∈ o.refs, S b
  keep : ∀ b, ¬ S b → s.mem[b]? = M[b]?
  fresh : ∀ b, s.mem.length ≤ b → S b
  nodes : ∀ id n, s.sess id = some n → (∀ p, n.node = some p → S p.1.base) ∧ ∀ q ∈ n.targets, S q.1.base

variable {S : Nat → Prop} {M : List HV} {s s' : UH} {l : Loc} {c : HV} {P : UEnv}

theorem Conf.get (h : Conf S M s) (hl : S l.base) (hg : s.get l = some c) : ∀ b ∈ c.refs, S b := by
  unfold UH.get memGet at hg
  cases ho : s.mem[l.base]? with
  | none => rw [ho] at hg; cases hg
  | some o => rw [ho] at hg; exact fun b hb => h.closed _ o hl ho b (at_refs hg hb)

theorem Conf.set (h : Conf S M s) (hl : S l.base) (hc : ∀ b ∈ c.refs, S b) : Conf S M (s.set l c) where
  closed := fun a o ha ho b hb => by
    simp only [UH.set, memSet] at ho
    split at ho
    · rename_i o' ho'
      by_cases e : l.base = a
      · subst e
        rw [List.getElem?_set_self (List.getElem?_eq_some_iff.1 ho').1] at ho
        cases ho
        rcases put_refs hb with h1 | h1
        · exact h.closed _ o' hl ho' b h1
        · exact hc b h1
      · rw [List.getElem?_set_ne e] at ho
        exact h.closed a o ha ho b hb
    · exact h.closed a o ha ho b hb
  keep := fun b hb => by
    simp only [UH.set]
    rw [memSet_obj_ne (by rintro rfl; exact hb hl)]
    exact h.keep b hb
  fresh := fun b hb => h.fresh b (by simpa [UH.set, memSet_length] using hb)
  nodes := h.nodes

theorem Conf.new (h : Conf S M s) {o : HV} (ho : ∀ b ∈ o.refs, S b) : Conf S M (s.new o).2 where
  closed := fun a o' ha ho' b hb => by
    simp only [UH.new] at ho'
    by_cases e : a < s.mem.length
    · rw [List.getElem?_append_left e] at ho'
      exact h.closed a o' ha ho' b hb
    · by_cases e' : a = s.mem.length
      · subst e'
        rw [List.getElem?_append_right (Nat.le_refl _)] at ho'
        simp only [Nat.sub_self, List.getElem?_cons_zero, Option.some.injEq] at ho'
        subst ho'
        exact ho b hb
      · rw [List.getElem?_eq_none (by simp; omega)] at ho'
        cases ho'
  keep := fun b hb => by
    have : b < s.mem.length := Nat.lt_of_not_le fun hle => hb (h.fresh b hle)
    simp only [UH.new]
    rw [List.getElem?_append_left this]
    exact h.keep b hb
  fresh := fun b hb => h.fresh b (by simp [UH.new] at hb; omega)
  nodes := h.nodes

theorem Conf.new_in (h : Conf S M s) : S s.mem.length := h.fresh _ (Nat.le_refl _)

theorem Conf.note (h : Conf S M s) {id : Int} {n : HNode} (h1 : ∀ p, n.node = some p → S p.1.base) (h2 : ∀ q ∈ n.targets, S q.1.base) :
    Conf S M (s.note id n) where
  closed := h.closed
  keep := h.keep
  fresh := h.fresh
  nodes := fun i m hi => by
    simp only [UH.note] at hi
    split at hi
    · cases hi; exact ⟨h1, h2⟩
    · exact h.nodes i m hi

theorem Conf.setPtr (h : Conf S M s) {p q : Loc × Ty} (hp : S p.1.base) (hq : S q.1.base) (hs : s.setPtr p q = some s') : Conf S M s' := by
  unfold UH.setPtr at hs
  split at hs
  · cases hs; exact h.set hq (by simp [HV.refs, hp])
  · cases hs

theorem Conf.setAll {p : Loc × Ty} (hp : S p.1.base) : ∀ (ts : List (Loc × Ty)) {s s' : UH}, Conf S M s → (∀ q ∈ ts, S q.1.base) → s.setAll p ts = some s' → Conf S M s'
  | [], s, s', h, _, hs => by cases hs; exact h
  | q :: ts, s, s', h, hq, hs => by
    simp only [UH.setAll] at hs
    split at hs
    · cases hs
    · rename_i s1 h1
      exact Conf.setAll hp ts (h.setPtr hp (hq q (by simp)) h1) (fun x hx => hq x (by simp [hx])) hs

theorem Conf.saveNode (h : Conf S M s) {id : Int} {p : Loc × Ty} (hp : S p.1.base) (hs : s.saveNode id p = some s') : Conf S M s' := by
  unfold UH.saveNode at hs
  split at hs
  · unfold UH.save at hs
    split at hs
    · cases hs; exact h.note (by simp [hp]) (by simp)
    · rename_i nv hn
      split at hs
      · cases hs
      · rename_i s1 h1
        cases hs
        exact (Conf.setAll hp _ h (h.nodes id nv hn).2 h1).note (by simp [hp]) (by simp)
  · cases hs; exact h

theorem Conf.refer (h : Conf S M s) {id : Int} {q : Loc × Ty} (hq : S q.1.base) (hs : s.refer id q = some s') : Conf S M s' := by
  unfold UH.refer at hs
  split at hs
  · rename_i p ts hn
    exact h.setPtr ((h.nodes id _ hn).1 p rfl) hq hs
  · rename_i ts hn
    cases hs
    refine h.note (by simp) ?_
    intro x hx
    rcases List.mem_append.1 hx with h1 | h1
    · exact (h.nodes id _ hn).2 x h1
    · simp only [List.mem_singleton] at h1; rw [h1]; exact hq
  · cases hs
    exact h.note (by simp) (by simp [hq])

theorem Conf.halloc (P : UEnv) : ∀ (t : Ty) {s : UH} {l : Loc}, Conf S M s → S l.base → Conf S M (P.halloc t l s) := by
  intro t
  induction t with
  | ptr t ih =>
    intro s l h hl
    rw [UEnv.halloc]
    split
    · rename_i l' hg
      exact ih h (h.get hl hg l'.base (by simp [HV.refs]))
    · exact ih ((h.new (by simp [hzero_refs])).set hl (by simp [HV.refs, UH.new, h.new_in])) h.new_in
  | jptr k =>
    intro s l h hl
    rw [UEnv.halloc]
    split
    · exact h.set hl (by simp [HV.refs])
    · exact h
  | _ => intro s l h hl; exact h

/-- A call that stays confined. -/
def Stays (S : Nat → Prop) (M : List HV) (r : HRes) : Prop := ∀ s' e, r = some (s', e) → Conf S M s'

theorem Stays.none : Stays S M none := fun _ _ h => by cases h
theorem Stays.some {e : Option UErr} (h : Conf S M s) : Stays S M (some (s, e)) := fun _ _ h' => by cases h'; exact h

theorem hstore_stays (f : UV → URes) (h : Conf S M s) (hl : S l.base) : Stays S M (hstore f l s) := by
  unfold hstore
  split
  · exact Stays.none
  · split
    · exact Stays.none
    · exact Stays.some (h.set hl (by simp [HV.refs]))
    · exact Stays.some h

theorem hscalar_stays (f : Ty → UV → URes) : ∀ (t : Ty) {s : UH} {l : Loc}, Conf S M s → S l.base → Stays S M (hscalar f t l s) := by
  intro t
  induction t with
  | ptr t ih =>
    intro s l h hl
    rw [hscalar]
    split
    · rename_i l' hg
      exact ih h (h.get hl hg l'.base (by simp [HV.refs]))
    · exact Stays.none
  | _ => intro s l h hl; exact hstore_stays _ h hl

theorem replicate_refs (P : UEnv) (t : Ty) (n : Nat) : HV.refss (List.replicate n (P.hzero t)) = [] := by
  induction n with
  | zero => rfl
  | succ n ih => rw [List.replicate_succ, HV.refss, ih, hzero_refs]; rfl

theorem hresize_stays (P : UEnv) (t : Ty) (n : Nat) (h : Conf S M s) (hl : S l.base) : S (P.hresize t n l s).1 ∧ Conf S M (P.hresize t n l s).2 := by
  have hfresh : S s.mem.length ∧ Conf S M ((s.new (.arr (List.replicate n (P.hzero t)))).2.set l (.seq s.mem.length n)) :=
    ⟨h.new_in, (h.new (by simp [HV.refs, replicate_refs])).set hl (by simp [HV.refs, h.new_in])⟩
  cases hg : s.get l with
  | none => simp only [UEnv.hresize, hg]; exact hfresh
  | some c =>
    cases c with
    | seq b k =>
      simp only [UEnv.hresize, hg]
      by_cases hc : s.cap b < n
      · rw [if_pos hc]; exact hfresh
      · rw [if_neg hc]
        have hb := h.get hl hg b (by simp [HV.refs])
        exact ⟨hb, h.set hl (by simp [HV.refs, hb])⟩
    | _ => simp only [UEnv.hresize, hg]; exact hfresh

theorem hstr_slice' (P : UEnv) (str : Bytes) (t : Ty) (l : Loc) (s : UH) :
    hstr P str (.slice t) l s = hstr P str t ⟨(P.hresize t 1 l s).1, [0]⟩ (P.halloc t ⟨(P.hresize t 1 l s).1, [0]⟩ (P.hresize t 1 l s).2) := by
  rw [hstr]
  unfold UEnv.hresize
  split
  · simp only
    split <;> rfl
  · rfl

theorem hstr_stays (P : UEnv) (str : Bytes) : ∀ (t : Ty) {s : UH} {l : Loc}, Conf S M s → S l.base → Stays S M (hstr P str t l s) := by
  intro t
  induction t with
  | ptr t ih =>
    intro s l h hl
    rw [hstr]
    split
    · rename_i l' hg
      exact ih h (h.get hl hg l'.base (by simp [HV.refs]))
    · exact Stays.none
  | slice t ih =>
    intro s l h hl
    rw [hstr_slice']
    obtain ⟨h1, h2⟩ := hresize_stays P t 1 h hl
    exact ih (Conf.halloc P t h2 h1) h1
  | _ => intro s l h hl; exact hstore_stays _ h hl

theorem Conf.makeMap (h : Conf S M s) (hl : S l.base) : Conf S M (s.makeMap l) := by
  unfold UH.makeMap
  split
  · exact h
  · exact (h.new (by simp [HV.refs, HV.refsm])).set hl (by simp [HV.refs, UH.new, h.new_in])

theorem Conf.setMapIndex (h : Conf S M s) (hl : S l.base) {k : Bytes} {x : Loc} (hx : S x.base) (hs : s.setMapIndex l k x = some s') : Conf S M s' := by
  unfold UH.setMapIndex at hs
  split at hs
  · rename_i b c hg hc
    split at hs
    · rename_i kvs hb
      cases hs
      have hSb := h.get hl hg b (by simp [HV.refs])
      have hcr := h.get hx hc
      have hbl := (List.getElem?_eq_some_iff.1 hb).1
      have := h.set (l := ⟨b, []⟩) hSb (c := .mapObj (smAdd kvs k c)) (by
        intro a ha
        rcases smAdd_refsm ha with h1 | h1
        · exact h.closed b _ hSb hb a h1
        · exact hcr a h1)
      simpa only [UH.set, memSet_obj hbl] using this
    · cases hs
  · cases hs

section
variable {tys : List (FInfo × Ty)} {idx : Bytes → List Nat} {assign : Ty → Loc → UH → HRes}
  (ha : ∀ (t : Ty) (l : Loc) (s : UH), Conf S M s → S l.base → Stays S M (assign t l s))
include ha

theorem hsetLoop_stays (hl : S l.base) {again : Bytes → List Bytes → UH → Option (UH × List Bytes × Option UErr)}
    (hag : ∀ k vis s r, Conf S M s → again k vis s = some r → Conf S M r.1) :
    ∀ (is : List Nat) (vis : List Bytes) (s : UH) r, Conf S M s → hsetLoop tys l assign again is vis s = some r → Conf S M r.1
  | [], vis, s, r, h, hr => by cases hr; exact h
  | i :: is, vis, s, r, h, hr => by
    simp only [hsetLoop] at hr
    split at hr
    · cases hr
    · rename_i info t _
      split at hr
      · cases hr
      · rename_i s1 e h1; cases hr; exact ha t (l.sub i) s h hl s1 _ h1
      · rename_i s1 h1
        have h2 := ha t (l.sub i) s h hl s1 _ h1
        split at hr
        · exact hsetLoop_stays hl hag is vis s1 r h2 hr
        · split at hr
          · cases hr
          · rename_i h3; cases hr; exact hag _ _ _ _ h2 h3
          · rename_i h3; exact hsetLoop_stays hl hag is _ _ r (hag _ _ _ _ h2 h3) hr

theorem hsetKey_stays (hl : S l.base) : ∀ (f : Nat) (k : Bytes) (vis : List Bytes) (s : UH) r, Conf S M s → hsetKey idx tys l assign f k vis s = some r → Conf S M r.1
  | 0, _, _, _, _, _, hr => by cases hr
  | f + 1, k, vis, s, r, h, hr => by
    simp only [hsetKey] at hr
    split at hr
    · cases hr; exact h
    · exact hsetLoop_stays ha hl (fun k vis s r h1 h2 => hsetKey_stays hl f k vis s r h1 h2) _ _ _ _ h hr
end

theorem harr_stays (P : UEnv) (xs : List J) {elems : Ty → Loc → UH → HRes} (he : ∀ (t : Ty) (l : Loc) (s : UH), Conf S M s → S l.base → Stays S M (elems t l s))
    (t : Ty) (h : Conf S M s) (hl : S l.base) : Stays S M (harr P xs elems t l s) := by
  unfold harr
  split
  · rename_i t'
    obtain ⟨h1, h2⟩ := hresize_stays P t' xs.length h hl
    exact he _ _ _ h2 h1
  · split
    · exact Stays.some h
    · exact he _ _ _ h hl
  · exact hstore_stays _ h hl

theorem hdict_stays (id : Int) (kvs : SMap J) {entries : Ty → Loc → UH → HRes} {fields : Nat → Loc → UH → Option (UH × List UErr)}
    (he : ∀ (t : Ty) (l : Loc) (s : UH), Conf S M s → S l.base → Stays S M (entries t l s))
    (hf : ∀ (n : Nat) (l : Loc) (s : UH) r, Conf S M s → S l.base → fields n l s = some r → Conf S M r.1)
    (t : Ty) (h : Conf S M s) (hl : S l.base) : Stays S M (hdict id kvs entries fields t l s) := by
  unfold hdict
  split
  · exact he _ _ _ (h.makeMap hl) hl
  · exact Stays.some (h.makeMap hl)
  · split
    · exact Stays.none
    · rename_i h1; exact Stays.some (hf _ _ _ _ h hl h1)
  · exact hstore_stays _ h hl

mutual
theorem hunm_stays (P : UEnv) : ∀ (j : J) (t : Ty) (l : Loc) (s : UH), Conf S M s → S l.base → Stays S M (j.hunm P t l s)
  | .null, t, l, s, h, hl => Stays.some (h.set hl (by simp [hzero_refs]))
  | .ptr id, t, l, s, h, hl => by
    intro s' e hs
    simp only [J.hunm, Option.map_eq_some_iff] at hs
    obtain ⟨s1, h1, h2⟩ := hs
    cases h2
    exact h.refer hl h1
  | .int n, t, l, s, h, hl => hscalar_stays _ t (Conf.halloc P t h hl) hl
  | .bool b, t, l, s, h, hl => hscalar_stays _ t (Conf.halloc P t h hl) hl
  | .float x bit, t, l, s, h, hl => hscalar_stays _ t (Conf.halloc P t h hl) hl
  | .str x, t, l, s, h, hl => hstr_stays P x t (Conf.halloc P t h hl) hl
  | .arr xs, t, l, s, h, hl => by
    have h1 := Conf.halloc P t h hl
    have core : ∀ (t : Ty) (l : Loc) (s : UH), Conf S M s → S l.base → Stays S M (harr P xs (fun t l s => J.hunms P xs t l 0 s) t l s) :=
      fun t l s h hl => harr_stays P xs (fun t l s h hl => hunms_stays P xs t l 0 s h hl) t h hl
    rw [J.hunm.eq_def]
    simp only
    split
    · split
      · split
        · rename_i l' hg
          exact core _ _ _ h1 (h1.get hl hg l'.base (by simp [HV.refs]))
        · exact Stays.none
      · exact Stays.some h1
    · exact core _ _ _ h1 hl
  | .dict id kvs, t, l, s, h, hl => by
    have core : ∀ (t : Ty) (l : Loc) (s : UH), Conf S M s → S l.base → Stays S M (hdict id kvs (fun t l s => J.hunmm P kvs t l s) (fun n l s => J.hunmf P kvs n l s) t l s) :=
      fun t l s h hl => hdict_stays id kvs (fun t l s h hl => hunmm_stays P kvs t l s h hl) (fun n l s r h hl hr => hunmf_stays P kvs n l s r h hl hr) t h hl
    rw [J.hunm.eq_def]
    simp only
    split
    · exact Stays.none
    · rename_i s0 h0
      have h1 := Conf.halloc P t (h.saveNode (p := (l, t)) hl h0) hl
      split
      · split
        · split
          · rename_i l' hg
            have hl' := h1.get hl hg l'.base (by simp [HV.refs])
            split
            · exact Stays.none
            · rename_i s2 h2
              exact core _ _ _ (h1.saveNode hl' h2) hl'
          · exact Stays.none
        · exact Stays.some h1
      · exact core _ _ _ h1 hl
theorem hunms_stays (P : UEnv) : ∀ (js : List J) (t : Ty) (l : Loc) (i : Nat) (s : UH), Conf S M s → S l.base → Stays S M (J.hunms P js t l i s)
  | [], t, l, i, s, h, _ => by rw [J.hunms]; exact Stays.some h
  | j :: js, t, l, i, s, h, hl => by
    rw [J.hunms]
    have h1 := hunm_stays P j t (l.sub i) s h hl
    split
    · exact Stays.none
    · rename_i s1 e h2; exact Stays.some (h1 s1 _ h2)
    · rename_i s1 h2; exact hunms_stays P js t l (i + 1) s1 (h1 s1 _ h2) hl
theorem hunmm_stays (P : UEnv) : ∀ (kvs : List (Bytes × J)) (t : Ty) (l : Loc) (s : UH), Conf S M s → S l.base → Stays S M (J.hunmm P kvs t l s)
  | [], t, l, s, h, _ => by rw [J.hunmm]; exact Stays.some h
  | (k, j) :: r, t, l, s, h, hl => by
    rw [J.hunmm]
    have h1 := hunm_stays P j t ⟨s.mem.length, []⟩ _ (h.new (o := P.hzero t) (by simp [hzero_refs])) h.new_in
    rw [show s.new (P.hzero t) = (s.mem.length, (s.new (P.hzero t)).2) from rfl]
    simp only
    split
    · exact Stays.none
    · rename_i s2 e h2; exact Stays.some (h1 s2 _ h2)
    · rename_i s2 h2
      split
      · exact Stays.none
      · rename_i s3 h3
        exact hunmm_stays P r t l s3 ((h1 s2 _ h2).setMapIndex hl h.new_in h3) hl
theorem hunmf_stays (P : UEnv) : ∀ (kvs : List (Bytes × J)) (n : Nat) (l : Loc) (s : UH) r, Conf S M s → S l.base → J.hunmf P kvs n l s = some r → Conf S M r.1
  | [], n, l, s, r, h, _, hr => by rw [J.hunmf] at hr; cases hr; exact h
  | (k, j) :: kvs, n, l, s, r, h, hl, hr => by
    rw [J.hunmf] at hr
    split at hr
    · cases hr
    · rename_i s1 vis e h1
      have h2 := hsetKey_stays (fun t l s h hl => hunm_stays P j t l s h hl) hl _ _ _ _ _ h h1
      split at hr
      · cases hr
      · rename_i s2 es h3
        cases hr
        exact hunmf_stays P kvs n l s1 (s2, es) h2 hl h3
end

/-- The set of what an object reaches, and of what is not there yet. -/
theorem conf_start (M : List HV) (a : Nat) : Conf (fun b => Reaches M a b ∨ M.length ≤ b) M ⟨M, fun _ => none⟩ where
  closed := fun b o hb ho b' hb' => by
    rcases hb with hb | hb
    · exact Or.inl (.step hb ho hb')
    · rw [List.getElem?_eq_none hb] at ho; cases ho
  keep := fun _ _ => rfl
  fresh := fun b hb => Or.inr hb
  nodes := fun _ _ h => by cases h

theorem hunmarshal_stays (P : UEnv) {j : J} {keys : List Bytes} {t : Ty} {l : Loc} {M M' : List HV} {e : Option UErr}
    (h : j.hunmarshal P keys t l M = some (M', e)) : ∃ s, Conf (fun b => Reaches M l.base b ∨ M.length ≤ b) M s ∧ s.mem = M' := by
  have h0 := conf_start M l.base
  have hl : (fun b => Reaches M l.base b ∨ M.length ≤ b) l.base := Or.inl .here
  have run : ∀ d : J, (d.hunm P t l ⟨M, fun _ => none⟩).map (fun r => (r.1.mem, r.2)) = some (M', e) →
      ∃ s, Conf (fun b => Reaches M l.base b ∨ M.length ≤ b) M s ∧ s.mem = M' := by
    intro d hd
    simp only [Option.map_eq_some_iff] at hd
    obtain ⟨⟨s, e'⟩, h1, h2⟩ := hd
    cases h2
    exact ⟨s, hunm_stays P d t l _ h0 hl s _ h1, rfl⟩
  have zero : some ((UH.set ⟨M, fun _ => none⟩ l (P.hzero t)).mem, (none : Option UErr)) = some (M', e) →
      ∃ s, Conf (fun b => Reaches M l.base b ∨ M.length ≤ b) M s ∧ s.mem = M' := by
    intro hd
    cases hd
    exact ⟨_, h0.set hl (by simp [hzero_refs]), rfl⟩
  unfold J.hunmarshal at h
  simp only at h
  split at h
  · split at h
    · exact run _ h
    · exact run _ h
    · exact run _ h
    · exact zero h
  · split at h
    · exact run _ h
    · cases h; exact ⟨_, h0, rfl⟩
    · cases h

end Jsonutils
