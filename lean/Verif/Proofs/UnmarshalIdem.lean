import Verif.Proofs.UnmarshalFrame
import Verif.Proofs.UnmarshalTwice
import Verif.Proofs.Dict
import Verif.Proofs.ParseMore

/-! Elements, entries; unmarshalling twice. -/

namespace Jsonutils

/-! ### Elements -/

theorem unms_spec (P : UEnv) (t : Ty) : ∀ (js : List J) (vs : List UV) p, vs.length = js.length → J.unms P js t vs = some p →
    p.1.length = vs.length ∧
    (p.2 = none → ∀ (i : Nat) (j : J) (v : UV), js[i]? = some j → vs[i]? = some v → ∃ w, j.unm P t v = uok w ∧ p.1[i]? = some w) ∧
    (∀ e, p.2 = some e → ∃ (i : Nat) (j : J) (v w : UV), js[i]? = some j ∧ vs[i]? = some v ∧ j.unm P t v = some (w, some e) ∧ p.1[i]? = some w ∧
      (∀ i', i < i' → p.1[i']? = vs[i']?) ∧
      ∀ (i' : Nat) (j' : J) (v' : UV), i' < i → js[i']? = some j' → vs[i']? = some v' → ∃ w', j'.unm P t v' = uok w' ∧ p.1[i']? = some w')
  | [], vs, p, hl, h => by
    simp only [J.unms, Option.some.injEq] at h; subst h
    exact ⟨rfl, by intro _ i j v h; simp at h, by intro e h; cases h⟩
  | j :: js, [], p, hl, h => by simp at hl
  | j :: js, v :: vs, p, hl, h => by
    simp only [J.unms] at h
    split at h
    · cases h
    · rename_i v' e hu
      cases h
      refine ⟨rfl, (by intro h; cases h), ?_⟩
      intro e' he
      cases he
      refine ⟨0, j, v, v', rfl, rfl, hu, rfl, ?_, by intro i' j' v'' h; omega⟩
      intro i' hi'
      obtain ⟨k, rfl⟩ : ∃ k, i' = k + 1 := ⟨i' - 1, by omega⟩
      rfl
    · rename_i v' hu
      cases hr : J.unms P js t vs with
      | none => rw [hr] at h; cases h
      | some q =>
        rw [hr] at h
        simp only [Option.map_some, Option.some.injEq] at h
        subst h
        obtain ⟨g1, g2, g3⟩ := unms_spec P t js vs q (by simpa using hl) hr
        refine ⟨by simp [g1], ?_, ?_⟩
        · intro he i j' v'' h1 h2
          cases i with
          | zero => simp at h1 h2; subst h1; subst h2; exact ⟨v', hu, rfl⟩
          | succ i => exact g2 he i j' v'' (by simpa using h1) (by simpa using h2)
        · intro e he
          obtain ⟨i, j', v'', w, h1, h2, h3, h4, h5, h6⟩ := g3 e he
          refine ⟨i + 1, j', v'', w, by simpa using h1, by simpa using h2, h3, by simpa using h4, ?_, ?_⟩
          · intro i' hi'
            obtain ⟨k, rfl⟩ : ∃ k, i' = k + 1 := ⟨i' - 1, by omega⟩
            simpa using h5 k (by omega)
          · intro i' a b hi' ha hb
            cases i' with
            | zero => simp at ha hb; subst ha; subst hb; exact ⟨v', hu, rfl⟩
            | succ k => simpa using h6 k a b (by omega) (by simpa using ha) (by simpa using hb)

/-! ### Entries -/

theorem unmm_spec (P : UEnv) (t : Ty) : ∀ (kvs : List (Bytes × J)) (m : SMap UV) p, SMap.Sorted kvs → SMap.Sorted m → J.unmm P kvs t m = some p →
    SMap.Sorted p.1 ∧
    (p.2 = none → ∀ k, (∀ j, smGet kvs k = some j → ∃ w, j.unm P t (P.zero t) = uok w ∧ smGet p.1 k = some w) ∧
      (smGet kvs k = none → smGet p.1 k = smGet m k)) ∧
    (∀ e, p.2 = some e → ∃ k0 j0 w0, smGet kvs k0 = some j0 ∧ j0.unm P t (P.zero t) = some (w0, some e) ∧
      ∀ k, (blt k k0 = true → ∀ j, smGet kvs k = some j → ∃ w, j.unm P t (P.zero t) = uok w ∧ smGet p.1 k = some w) ∧
        (blt k k0 = false ∨ smGet kvs k = none → smGet p.1 k = smGet m k))
  | [], m, p, _, hm, h => by
    simp only [J.unmm, Option.some.injEq] at h; subst h
    exact ⟨hm, fun _ k => ⟨by intro j h; simp [smGet] at h, fun _ => rfl⟩, by intro e h; cases h⟩
  | (k1, j1) :: r, m, p, hs, hm, h => by
    have hs' := List.pairwise_cons.1 hs
    have hnot : smGet r k1 = none := by
      cases hg : smGet r k1 with
      | none => rfl
      | some v =>
        have := hs'.1 _ (smGet_mem hg)
        simp [blt_irrefl] at this
    simp only [J.unmm] at h
    have hget : ∀ k, smGet ((k1, j1) :: r) k = if k = k1 then some j1 else smGet r k := by
      intro k
      simp only [smGet]
      by_cases hk : k = k1
      · subst hk; simp
      · rw [if_neg hk, if_neg (Ne.symm hk)]
    split at h
    · cases h
    · rename_i w e hu
      cases h
      refine ⟨hm, (by intro h; cases h), ?_⟩
      intro e' he
      cases he
      refine ⟨k1, j1, w, by rw [hget, if_pos rfl], hu, fun k => ⟨?_, fun _ => rfl⟩⟩
      intro hk j hj
      rw [hget] at hj
      split at hj
      · rename_i h; subst h; simp [blt_irrefl] at hk
      · have := hs'.1 _ (smGet_mem hj)
        have := blt_trans hk this
        simp [blt_irrefl] at this
    · rename_i w hu
      obtain ⟨g1, g2, g3⟩ := unmm_spec P t r (smAdd m k1 w) p hs'.2 (sorted_smAdd hm k1 w) h
      refine ⟨g1, ?_, ?_⟩
      · intro he k
        obtain ⟨a1, a2⟩ := g2 he k
        rw [hget]
        by_cases hk : k = k1
        · subst hk
          simp only [if_true]
          refine ⟨?_, by intro h; cases h⟩
          intro j hj; cases hj
          refine ⟨w, hu, ?_⟩
          rw [a2 hnot, smGet_smAdd m hm, if_pos rfl]
        · rw [if_neg hk]
          refine ⟨a1, fun h => ?_⟩
          rw [a2 h, smGet_smAdd m hm, if_neg hk]
      · intro e he
        obtain ⟨k0, j0, w0, b1, b2, b3⟩ := g3 e he
        have hlt : blt k1 k0 = true := hs'.1 _ (smGet_mem b1)
        have hne : k0 ≠ k1 := by rintro rfl; simp [blt_irrefl] at hlt
        refine ⟨k0, j0, w0, by rw [hget, if_neg hne]; exact b1, b2, fun k => ?_⟩
        obtain ⟨c1, c2⟩ := b3 k
        rw [hget]
        by_cases hk : k = k1
        · subst hk
          simp only [if_true]
          refine ⟨?_, ?_⟩
          · intro _ j hj; cases hj
            refine ⟨w, hu, ?_⟩
            rw [c2 (.inr hnot), smGet_smAdd m hm, if_pos rfl]
          · rintro (h | h)
            · rw [hlt] at h; cases h
            · cases h
        · rw [if_neg hk]
          refine ⟨c1, fun h => ?_⟩
          rw [c2 h, smGet_smAdd m hm, if_neg hk]

/-! ### Fields -/

theorem unmf_fix {P : UEnv} {n : Nat} {vs : List UV} : ∀ (kvs : List (Bytes × J)),
    (∀ k j, (k, j) ∈ kvs → P.idx n k = [] ∨ ∃ i info t v, P.idx n k = [i] ∧ (P.defs.getD n [])[i]? = some (info, t) ∧ info.deprecatedBy = none ∧
      vs[i]? = some v ∧ j.unm P t v = uok v) → J.unmf P kvs n vs = some (vs, [])
  | [], _ => rfl
  | (k, j) :: r, h => by
    have ih := unmf_fix r fun k' j' hm' => h k' j' (List.mem_cons_of_mem _ hm')
    simp only [J.unmf]
    rcases h k j (List.mem_cons_self ..) with h0 | ⟨i, info, t, v, h1, h2, h3, h4, h5⟩
    · rw [setKey_none h0]
      simp only [ih, Option.map_some]
    · rw [setKey_one h1 h2 h4 h3 h5, set_same h4]
      simp only [ih, Option.map_some]

/-! ### Twice -/

/-- Unmarshalling into the result changes nothing. -/
def Idem (P : UEnv) (j : J) : Prop :=
  ∀ (t : Ty) (v w : UV), t.Valid P.defs → t.NoJVal → v.HasTy P.defs t → j.unm P t v = uok w → j.unm P t w = uok w

theorem arrInto_idem {P : UEnv} (hP : P.Ok) {xs : List J} (hx : ∀ j ∈ xs, Idem P j) {t : Ty} {v w : UV} (ht : t.Valid P.defs) (hnj : t.NoJVal)
    (hv : v.HasTy P.defs t) (h : arrInto P xs (fun t vs => J.unms P xs t vs) t v = uok w) :
    arrInto P xs (fun t vs => J.unms P xs t vs) t w = uok w := by
  have elems : ∀ (t : Ty) (vs ys : List UV), t.Valid P.defs → t.NoJVal → (∀ x ∈ vs, x.HasTy P.defs t) → vs.length = xs.length →
      J.unms P xs t vs = some (ys, none) → ys.length = xs.length ∧ J.unms P xs t ys = some (ys, none) := by
    intro t vs ys ht hnj hvs hl hu
    obtain ⟨g1, g2, _⟩ := unms_spec P t xs vs _ hl hu
    refine ⟨by simpa using g1.trans hl, unms_fix xs ys (by simpa using g1.trans hl) ?_⟩
    intro i j y hj hy
    obtain ⟨v, hv⟩ : ∃ v, vs[i]? = some v := ⟨_, List.getElem?_eq_getElem (by have := (List.getElem?_eq_some_iff.1 hj).1; omega)⟩
    obtain ⟨w, h1, h2⟩ := g2 rfl i j v hj hv
    simp only at h2
    rw [hy] at h2; cases h2
    exact hx j (List.mem_of_getElem? hj) t v y ht hnj (hvs v (List.mem_of_getElem? hv)) h1
  cases t with
  | string => cases uok_inj h; rfl
  | any => cases uok_inj h; rfl
  | slice t =>
    simp only [arrInto] at h ⊢
    obtain ⟨r1, r2, r3⟩ := resize_hasTy (t := t) hP ht hv xs.length
    cases hu : J.unms P xs t (P.resize t xs.length v).1 with
    | none => rw [hu] at h; simp [uok] at h
    | some q =>
      obtain ⟨ys, e⟩ := q
      rw [hu] at h
      simp only [Option.map_some, uok, Option.some.injEq, Prod.mk.injEq] at h
      obtain ⟨rfl, rfl⟩ := h
      obtain ⟨g1, g2⟩ := elems t _ ys ht hnj r2 r1 hu
      have : P.resize t xs.length (.seq ys (P.resize t xs.length v).2) = (ys, (P.resize t xs.length v).2) := by
        generalize (P.resize t xs.length v).2 = sp
        rw [← g1]
        exact resize_exact P t ys sp
      rw [this]
      simp only [g2, Option.map_some, uok]
  | array n t =>
    cases v with
    | arr vs =>
      simp only [UV.HasTy] at hv
      obtain ⟨t', h1, h2⟩ := hv
      cases h1
      simp only [arrInto] at h
      split at h
      · exact (uerr_ok h).elim
      · rename_i hn
        cases hu : J.unms P xs t vs with
        | none => rw [hu] at h; simp [uok] at h
        | some q =>
          obtain ⟨ys, e⟩ := q
          rw [hu] at h
          simp only [Option.map_some, uok, Option.some.injEq, Prod.mk.injEq] at h
          obtain ⟨rfl, rfl⟩ := h
          obtain ⟨_, g2⟩ := elems t _ ys ht hnj ((hasTys_iff _).1 h2) (by omega) hu
          simp only [arrInto, if_neg hn, g2, Option.map_some, uok]
    | _ => exact (uerr_ok h).elim
  | jobj => cases uok_inj h; rfl
  | jptr k =>
    cases k <;> first
      | exact (uerr_ok h).elim
      | (cases uok_inj h; rfl)
  | jval k => exact hnj.elim
  | _ => exact (uerr_ok h).elim

theorem dictInto_idem {P : UEnv} (hP : P.Ok) (hN : P.NoJVal) {id : Int} {kvs : SMap J} (hs : SMap.Sorted kvs) (hw : J.WFf kvs)
    (hpl : ∀ n fs, P.defs[n]? = some fs → PlainKeys (P.idx n) fs kvs)
    (hx : ∀ k j, (k, j) ∈ kvs → Idem P j) {t : Ty} {v w : UV} (hv : v.HasTy P.defs t) (hnj : t.NoJVal)
    (h : dictInto id kvs (fun t m => J.unmm P kvs t m) (fun n vs => J.unmf P kvs n vs) t v = uok w) :
    dictInto id kvs (fun t m => J.unmm P kvs t m) (fun n vs => J.unmf P kvs n vs) t w = uok w := by
  cases t with
  | string => cases uok_inj h; rfl
  | any => exact (uerr_ok h).elim
  | map t =>
    simp only [dictInto] at h ⊢
    have hm : SMap.Sorted v.entries := by
      cases v with
      | map m => exact hv.1
      | _ => exact sorted_nil
    cases hu : J.unmm P kvs t v.entries with
    | none => rw [hu] at h; simp [uok] at h
    | some q =>
      obtain ⟨m, e⟩ := q
      rw [hu] at h
      simp only [Option.map_some, uok, Option.some.injEq, Prod.mk.injEq] at h
      obtain ⟨rfl, rfl⟩ := h
      obtain ⟨g1, g2, _⟩ := unmm_spec P t kvs v.entries _ hs hm hu
      simp only [UV.entries]
      rw [unmm_fix g1 kvs fun k j hkj => (g2 rfl k).1 j (smGet_of_mem hs hkj)]
      rfl
  | mapOther t => exact (uerr_ok h).elim
  | struct n =>
    cases v with
    | struct vs =>
      simp only [UV.HasTy] at hv
      obtain ⟨n', fs, h1, h2, h3⟩ := hv
      cases h1
      have hgetD : P.defs.getD n [] = fs := by simp [List.getD_eq_getElem?_getD, h2]
      simp only [dictInto] at h ⊢
      cases hu : J.unmf P kvs n vs with
      | none => rw [hu] at h; simp [uok] at h
      | some q =>
        obtain ⟨ys, es⟩ := q
        rw [hu] at h
        simp only [Option.map_some, uok, Option.some.injEq, Prod.mk.injEq] at h
        obtain ⟨rfl, he⟩ := h
        have hes : es = [] := by
          cases es with
          | nil => rfl
          | cons a b => simp at he
        subst hes
        have hlen := ((hasTyf_iff _ _).1 h3).1
        have hp := hpl n fs h2
        obtain ⟨g1, g2, g3, g4⟩ := unmf_plain P n kvs vs _ (by rw [hgetD]; exact hp) (by rw [hgetD]; exact hlen) hu
        have hfix : J.unmf P kvs n ys = some (ys, []) := by
          refine unmf_fix kvs fun k j hkj => ?_
          rcases hp.1 k j hkj with h0 | ⟨i, info, t, e1, e2, e3⟩
          · exact .inl h0
          · right
            obtain ⟨v, hvi⟩ : ∃ v, vs[i]? = some v := ⟨_, List.getElem?_eq_getElem (by have := (List.getElem?_eq_some_iff.1 e2).1; omega)⟩
            obtain ⟨w, e, a1, a2⟩ := g3 k j i info t v hkj e1 (by rw [hgetD]; exact e2) hvi
            have he : e = none := by
              cases e with
              | none => rfl
              | some e =>
                have : e ∈ kvs.filterMap fun kv => (fieldRes P n vs kv.1 kv.2).bind (·.2) := by
                  refine List.mem_filterMap.2 ⟨(k, j), hkj, ?_⟩
                  simp only [fieldRes, e1, hgetD, e2, hvi, a1, Option.bind_some]
                rw [← g4] at this; cases this
            subst he
            have hmem : (info, t) ∈ fs := List.mem_of_getElem? e2
            refine ⟨i, info, t, w, e1, by rw [hgetD]; exact e2, e3, a2, ?_⟩
            exact hx k j hkj t v w (hP.2.1 n fs h2 info t hmem) (hN n fs h2 info t hmem) (((hasTyf_iff _ _).1 h3).2 i v info t hvi e2) a1
        simp only [hfix, Option.map_some, List.isEmpty_nil, if_true, uok]
    | _ => exact (uerr_ok h).elim
  | jobj => cases uok_inj h; rfl
  | jptr k =>
    cases k <;> first
      | exact (uerr_ok h).elim
      | (cases uok_inj h; rfl)
  | jval k => exact hnj.elim
  | _ => exact (uerr_ok h).elim

mutual
theorem unm_idem {P : UEnv} (hP : P.Ok) (hN : P.NoJVal) : ∀ (j : J), j.WF → j.PlainFor P → Idem P j
  | .null, _, _ => fun t v w _ _ _ h => by simp only [J.unm] at h ⊢; exact h
  | .ptr _, _, _ => fun t v w _ _ _ h => by simp only [J.unm]
  | .int n, _, _ => fun t v w _ _ _ h => by
    simp only [J.unm] at h ⊢
    obtain ⟨g1, g2⟩ := unmInt_idem P n t _ w (alloc_idem P t v) h
    rw [g1, g2]
  | .bool b, _, _ => fun t v w _ _ _ h => by
    simp only [J.unm] at h ⊢
    obtain ⟨g1, g2⟩ := unmBool_idem P b t _ w (alloc_idem P t v) h
    rw [g1, g2]
  | .float x bit, _, _ => fun t v w _ _ _ h => by
    simp only [J.unm] at h ⊢
    obtain ⟨g1, g2⟩ := unmFloat_idem P x bit t _ w (alloc_idem P t v) h
    rw [g1, g2]
  | .str s, _, _ => fun t v w _ _ _ h => by
    simp only [J.unm] at h ⊢
    obtain ⟨g1, g2⟩ := unmStr_idem P s t _ w (alloc_idem P t v) h
    rw [g1, g2]
  | .arr xs, hw, hp => fun t v w ht hnj hv h => by
    have hx := unms_idem hP hN xs hw hp
    have hal := alloc_hasTy hP t v ht hv
    cases t with
    | ptr t' =>
      obtain ⟨x, hx'⟩ : ∃ x, P.alloc (.ptr t') v = .ptr x := by cases v <;> exact ⟨_, rfl⟩
      simp only [J.unm, hx'] at h
      rw [hx'] at hal
      split at h
      · rename_i hseq
        obtain ⟨w', rfl, h'⟩ := uptr_ok h
        have := arrInto_idem hP hx (t := t') ht hnj (hasTy_ptr hal) h'
        simp only [J.unm, UEnv.alloc, alloc_seq P hseq, hseq, if_true, this]
        rfl
      · exact (uerr_ok h).elim
    | jptr k =>
      simp only [J.unm] at h ⊢
      cases k <;> first
        | exact (uerr_ok h).elim
        | (cases uok_inj h; rfl)
    | _ =>
      simp only [J.unm, UEnv.alloc] at h ⊢
      exact arrInto_idem hP hx ht hnj hv h
  | .dict id kvs, hw, hp => fun t v w ht hnj hv h => by
    have hx := unmf_idem hP hN kvs hw.2 hp.2
    have hal := alloc_hasTy hP t v ht hv
    cases t with
    | ptr t' =>
      obtain ⟨x, hx'⟩ : ∃ x, P.alloc (.ptr t') v = .ptr x := by cases v <;> exact ⟨_, rfl⟩
      simp only [J.unm, hx'] at h
      rw [hx'] at hal
      split at h
      · rename_i hsm
        obtain ⟨w', rfl, h'⟩ := uptr_ok h
        have := dictInto_idem hP hN hw.1 hw.2 hp.1 hx (t := t') (hasTy_ptr hal) hnj h'
        simp only [J.unm, UEnv.alloc, alloc_sm P hsm, hsm, if_true, this]
        rfl
      · exact (uerr_ok h).elim
    | jptr k =>
      simp only [J.unm] at h ⊢
      cases k <;> first
        | exact (uerr_ok h).elim
        | (cases uok_inj h; rfl)
    | _ =>
      simp only [J.unm, UEnv.alloc] at h ⊢
      exact dictInto_idem hP hN hw.1 hw.2 hp.1 hx hv hnj h
theorem unms_idem {P : UEnv} (hP : P.Ok) (hN : P.NoJVal) : ∀ (js : List J), J.WFs js → J.PlainFors P js → ∀ j ∈ js, Idem P j
  | [], _, _, _, h => by cases h
  | x :: xs, hw, hp, j, h => by
    rcases List.mem_cons.1 h with h | h
    · rw [h]; exact unm_idem hP hN x hw.1 hp.1
    · exact unms_idem hP hN xs hw.2 hp.2 j h
theorem unmf_idem {P : UEnv} (hP : P.Ok) (hN : P.NoJVal) : ∀ (kvs : List (Bytes × J)), J.WFf kvs → J.PlainForf P kvs → ∀ k j, (k, j) ∈ kvs → Idem P j
  | [], _, _, _, _, h => by cases h
  | (k0, x) :: xs, hw, hp, k, j, h => by
    rcases List.mem_cons.1 h with h | h
    · cases h; exact unm_idem hP hN x hw.1 hp.1
    · exact unmf_idem hP hN xs hw.2 hp.2 k j h
end

end Jsonutils
