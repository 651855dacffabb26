import Verif.Proofs.UnmarshalRT
import Verif.Proofs.MarshalBare
import Verif.Proofs.Stream

/-! Tidy values; from trees to `Marshal` and `Unmarshal`. -/

namespace Jsonutils

theorem inherit_plain {P : UEnv} {n : Nat}
    (h : ∀ (q : Nat) (i : FInfo) (t : Ty), (P.defs.getD n [])[q]? = some (i, t) → i.ignore = false → i.deprecatedBy = none) (vs : List UV) :
    P.inherit (.struct n) vs = vs := by
  have hh : ∀ f q, P.heir n f q = q := by
    intro f q
    cases f with
    | zero => rfl
    | succ f =>
      simp only [UEnv.heir]
      cases hq : (P.defs.getD n [])[q]? with
      | none => rfl
      | some p =>
        obtain ⟨i, t⟩ := p
        cases hi : i.ignore with
        | true => simp [hi]
        | false => simp [hi, h q i t hq hi]
  apply List.ext_getElem?
  intro q
  rcases Nat.lt_or_ge q vs.length with hq | hq
  · simp only [UEnv.inherit, hh, List.getElem?_map, List.getElem?_range hq, Option.map_some, List.getD_eq_getElem?_getD, List.getElem?_eq_getElem hq, Option.getD_some]
  · rw [List.getElem?_eq_none hq, List.getElem?_eq_none (by simpa [UEnv.inherit] using hq)]

variable {ord : SMap Bytes → List (Bytes × Bytes)} {pick : List Nat → Nat} {P : UEnv}

theorem nullLike_zero {t : Ty} : ∀ (v : UV), v.HasTy P.defs t → v.nullLike = true → (∀ x, v ≠ .ptr x) → v ≠ .json .null → v = P.zero t
  | .nil, h, _, _, _ => by
    simp only [UV.HasTy] at h
    cases t <;> first | rfl | exact absurd h (by simp [Ty.Nilable])
  | .json j, _, h, _, hj => by
    cases j <;> simp [UV.nullLike] at h
    exact absurd rfl hj
  | .ptr x, _, _, h, _ => absurd rfl (h x)
  | .bool _, _, h, _, _ => by simp [UV.nullLike] at h
  | .int _, _, h, _, _ => by simp [UV.nullLike] at h
  | .float _, _, h, _, _ => by simp [UV.nullLike] at h
  | .str _, _, h, _, _ => by simp [UV.nullLike] at h
  | .seq _ _, _, h, _, _ => by simp [UV.nullLike] at h
  | .arr _, _, h, _, _ => by simp [UV.nullLike] at h
  | .map _, _, h, _, _ => by simp [UV.nullLike] at h
  | .struct _, _, h, _, _ => by simp [UV.nullLike] at h
  | .any _, _, h, _, _ => by simp [UV.nullLike] at h

theorem tidy_null {oe : Bool} {t : Ty} {v : UV} (hv : v.HasTy P.defs t) (ht : v.Tidy P oe t) (hn : v.nullLike = true) : v = P.zero t := by
  refine nullLike_zero v hv hn ?_ ?_
  · rintro x rfl
    simp only [UV.Tidy] at ht
    simp only [UV.nullLike] at hn
    rw [ht.1] at hn; cases hn
  · rintro rfl
    simp [UV.Tidy] at ht

mutual
theorem norm_tidy {oe : Bool} : ∀ (v : UV) (t : Ty), v.HasTy P.defs t → v.Tidy P oe t → v.norm P oe t = v
  | .nil, _, _, _ => rfl
  | .bool _, _, _, _ => rfl
  | .int _, _, _, _ => rfl
  | .float _, _, _, _ => rfl
  | .str _, _, _, _ => rfl
  | .any _, _, _, _ => rfl
  | .json _, _, _, _ => rfl
  | .seq xs sp, t, hv, ht => by
    simp only [UV.HasTy] at hv
    obtain ⟨t', rfl, h1, _⟩ := hv
    simp only [UV.Tidy, Ty.elem] at ht
    simp only [UV.norm, Ty.elem, norms_tidy xs t' h1 ht.2, ht.1]
  | .arr xs, t, hv, ht => by
    simp only [UV.HasTy] at hv
    obtain ⟨t', rfl, h1⟩ := hv
    simp only [UV.Tidy, Ty.elem] at ht
    simp only [UV.norm, Ty.elem, norms_tidy xs t' h1 ht]
  | .map kvs, t, hv, ht => by
    simp only [UV.HasTy] at hv
    obtain ⟨_, t', he, h1⟩ := hv
    have he : t.elem = t' := by rcases he with rfl | rfl <;> rfl
    simp only [UV.Tidy, he] at ht
    simp only [UV.norm, he, normm_tidy kvs t' h1 ht]
  | .ptr x, t, hv, ht => by
    simp only [UV.HasTy] at hv
    obtain ⟨t', rfl, h1⟩ := hv
    simp only [UV.Tidy, Ty.elem] at ht
    simp only [UV.norm, Ty.elem, norm_tidy x t' h1 ht.2]
  | .struct vs, t, hv, ht => by
    simp only [UV.HasTy] at hv
    obtain ⟨n, fs, rfl, h1, h2⟩ := hv
    have hf : (Ty.struct n).fields P.defs = fs := by simp [Ty.fields, List.getD_eq_getElem?_getD, h1]
    simp only [UV.Tidy, hf] at ht
    simp only [UV.norm, hf, normf_tidy vs fs h2 ht.1, ht.2]
theorem norms_tidy {oe : Bool} : ∀ (xs : List UV) (t : Ty), UV.HasTys P.defs xs t → UV.Tidys P oe xs t → UV.norms P oe xs t = xs
  | [], _, _, _ => rfl
  | x :: xs, t, hv, ht => by
    simp only [UV.HasTys] at hv
    simp only [UV.Tidys] at ht
    simp only [UV.norms, norms_tidy xs t hv.2 ht.2]
    split
    · rename_i h; rw [← tidy_null hv.1 ht.1 h]
    · rw [norm_tidy x t hv.1 ht.1]
theorem normm_tidy {oe : Bool} : ∀ (xs : List (Bytes × UV)) (t : Ty), UV.HasTym P.defs xs t → UV.Tidym P oe xs t → UV.normm P oe xs t = xs
  | [], _, _, _ => rfl
  | (k, x) :: xs, t, hv, ht => by
    simp only [UV.HasTym] at hv
    simp only [UV.Tidym] at ht
    have : (oe && x.nilLike) = false := by
      cases oe with
      | false => rfl
      | true => simp [ht.1 rfl]
    simp only [UV.normm, this, Bool.false_eq_true, if_false, normm_tidy xs t hv.2 ht.2.2]
    split
    · rename_i h; rw [← tidy_null hv.1 ht.2.1 h]
    · rw [norm_tidy x t hv.1 ht.2.1]
theorem normf_tidy {oe : Bool} : ∀ (xs : List UV) (fs : List (FInfo × Ty)), UV.HasTyf P.defs xs fs → UV.Tidyf P oe xs fs → UV.normf P oe xs fs = xs
  | [], _, _, _ => rfl
  | x :: xs, fs, hv, ht => by
    simp only [UV.HasTyf] at hv
    obtain ⟨i, t, r, rfl, h1, h2⟩ := hv
    simp only [UV.Tidyf] at ht
    simp only [UV.normf, normf_tidy xs r h2 ht.2.2]
    split
    · rename_i h
      simp only [Bool.or_eq_true, Bool.and_eq_true] at h
      rcases h with (h | h) | h
      · rw [← ht.1 (.inl h)]
      · rw [← tidy_null h1 ht.2.1 h]
      · rw [← ht.1 (.inr h)]
    · rw [norm_tidy x t h1 ht.2.1]
end

theorem rooted_docFor {j : J} : ∀ {t : Ty}, t.Rooted → j.DocFor t → j.Rooted
  | .slice _, _, h => by cases j <;> simp [J.DocFor, J.DocArr] at h; trivial
  | .array _ _, _, h => by cases j <;> simp [J.DocFor, J.DocArr] at h; trivial
  | .map _, _, h => by cases j <;> simp [J.DocFor, J.DocDict] at h; trivial
  | .struct _, _, h => by cases j <;> simp [J.DocFor, J.DocDict] at h; trivial
  | .string, _, h => by cases j <;> simp [J.DocFor, J.DocStr] at h; trivial
  | .ptr t, hr, h => rooted_docFor (t := t) (by simpa only [Ty.Rooted] using hr) (by simpa only [J.DocFor] using h)
  | .bool, h, _ => h.elim
  | .int _, h, _ => h.elim
  | .uint _, h, _ => h.elim
  | .float32, h, _ => h.elim
  | .float64, h, _ => h.elim
  | .mapOther _, h, _ => h.elim
  | .any, h, _ => h.elim
  | .jobj, h, _ => h.elim
  | .jptr _, h, _ => h.elim
  | .jval _, h, _ => h.elim
  | .other, h, _ => h.elim

theorem unmarshal_rooted {d : J} (hd : d.Rooted) (t : Ty) (x : UV) : d.unmarshal P [] t x = d.unm P t x := by
  cases d <;> first | rfl | exact hd.elim

theorem unmarshal_key (d : J) (k : Bytes) (kvs : SMap J) (id : Int) (hk : smGet kvs k = some d) (t : Ty) (x : UV) :
    (J.dict id kvs).unmarshal P [k] t x = d.unm P t x := by
  simp only [J.unmarshal, J.get, dictGet, getLoop, hk]

/-- The common core of the theorems below. -/
theorem restores (hord : ∀ dep, (ord dep).Perm dep) {oe text : Bool} (hP : P.RoundTripsD text) {t : Ty} (ht : t.RoundTrips text)
    {h : List GV} {g : GV} {v : UV} (hv : IsValue P.defs h g v t) (hr : v.Restorable oe text) {n : Nat} {j : J}
    (hm : marshal ord pick oe h n g = some j) :
    (j.seen text).unm P t (P.zero t) = uok (v.restored P oe t) ∧ ((j.seen text).DocFor t ∨ j = .null ∧ v.restored P oe t = P.zero t) := by
  obtain ⟨hty, hu⟩ := hv
  obtain ⟨o, ho, hj⟩ := marshal_tree hu hm
  obtain ⟨g1, g2⟩ := rt hord hP v t hty ht hr o ho
  cases hn : v.nullLike with
  | true =>
    have : j = .null := by
      rcases g1 hn with h | h <;> subst h <;> simpa using hj.symm
    subst this
    rw [seen_null]
    simp only [UV.restored, hn, if_true, J.unm, true_and]
    exact .inr trivial
  | false =>
    obtain ⟨j', h1, h2, h3, _⟩ := g2 hn
    subst h1
    simp only [Option.getD_some] at hj
    subst hj
    simp only [UV.restored, hn, Bool.false_eq_true, if_false]
    exact ⟨h3, .inl h2⟩

end Jsonutils
