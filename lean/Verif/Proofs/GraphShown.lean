import Verif.Proofs.GraphDesc

/-! # A description of a graph, read into memory, shows the graph -/

namespace Jsonutils

section
variable {P : UEnv} {h : List GV} {Θ : Nat → Ty} {Dg : Int → Nat} {R : Nat → Loc → Prop} {M : List HV}

theorem shownf_iff : ∀ (fs : List (FInfo × GV)) (ds : List (FInfo × Ty)) (vs : List HV), GV.Shownf P Θ R M fs ds vs ↔
    fs.map (·.1) = ds.map (·.1) ∧ vs.length = ds.length ∧
      ∀ (q : Nat) (i : FInfo) (x : GV) (t : Ty) (c : HV), fs[q]? = some (i, x) → ds[q]? = some (i, t) → vs[q]? = some c → x.Shown P Θ R M t c
  | [], ds, vs => by
    rw [GV.Shownf]
    constructor
    · rintro ⟨rfl, rfl⟩; simp
    · rintro ⟨h1, h2, _⟩
      cases ds with
      | nil => exact ⟨rfl, List.length_eq_zero_iff.1 h2⟩
      | cons _ _ => simp at h1
  | (i, x) :: fs, ds, vs => by
    rw [GV.Shownf]
    constructor
    · rintro ⟨t, dr, c, r, rfl, rfl, h1, h2⟩
      obtain ⟨k1, k2, k3⟩ := (shownf_iff fs dr r).1 h2
      refine ⟨by simp [k1], by simp [k2], ?_⟩
      intro q i' x' t' c' e1 e2 e3
      cases q with
      | zero => simp at e1 e2 e3; obtain ⟨rfl, rfl⟩ := e1; obtain ⟨_, rfl⟩ := e2; obtain rfl := e3; exact h1
      | succ q => exact k3 q i' x' t' c' (by simpa using e1) (by simpa using e2) (by simpa using e3)
    · rintro ⟨h1, h2, h3⟩
      cases ds with
      | nil => simp at h1
      | cons d dr =>
        obtain ⟨i', t⟩ := d
        simp only [List.map_cons, List.cons.injEq] at h1
        obtain ⟨rfl, h1⟩ := h1
        cases vs with
        | nil => simp at h2
        | cons c r =>
          refine ⟨t, dr, c, r, rfl, rfl, h3 0 i x t c rfl rfl rfl, (shownf_iff fs dr r).2 ⟨h1, by simpa using h2, ?_⟩⟩
          intro q i' x' t' c' e1 e2 e3
          exact h3 (q + 1) i' x' t' c' (by simpa using e1) (by simpa using e2) (by simpa using e3)

theorem showns_iff : ∀ (xs : List GV) (t : Ty) (ys : List HV), GV.Showns P Θ R M xs t ys ↔
    ys.length = xs.length ∧ ∀ (q : Nat) (x : GV) (c : HV), xs[q]? = some x → ys[q]? = some c → x.Shown P Θ R M t c
  | [], t, ys => by
    rw [GV.Showns]
    exact ⟨fun h => by simp [h], fun h => List.length_eq_zero_iff.1 h.1⟩
  | x :: xs, t, ys => by
    rw [GV.Showns]
    constructor
    · rintro ⟨c, r, rfl, h1, h2⟩
      obtain ⟨k1, k2⟩ := (showns_iff xs t r).1 h2
      refine ⟨by simp [k1], ?_⟩
      intro q x' c' e1 e2
      cases q with
      | zero => simp at e1 e2; subst e1 e2; exact h1
      | succ q => exact k2 q x' c' (by simpa using e1) (by simpa using e2)
    · rintro ⟨h1, h2⟩
      cases ys with
      | nil => simp at h1
      | cons c r =>
        refine ⟨c, r, rfl, h2 0 x c rfl rfl, (showns_iff xs t r).2 ⟨by simpa using h1, fun q x' c' e1 e2 => ?_⟩⟩
        exact h2 (q + 1) x' c' (by simpa using e1) (by simpa using e2)

/-! ### Zero values -/

theorem toTVs_map (D : Defs) (t : Ty) (xs : List UV) : UV.toTVs D xs t = xs.map fun x => x.toTV D t := by
  induction xs with
  | nil => rfl
  | cons x xs ih => simp [UV.toTVs, ih]

theorem toGVs_map (xs : List TV) : TV.toGVs xs = xs.map TV.toGV := by
  induction xs with
  | nil => rfl
  | cons x xs ih => simp [TV.toGVs, ih]

theorem gzero_array (P : UEnv) (n : Nat) (t : Ty) : P.gzero (.array n t) = .seq (List.replicate n (P.gzero t)) := by
  simp only [UEnv.gzero, zero_array, UV.toTV, TV.toGV, toTVs_map, toGVs_map, List.map_replicate, Ty.elem]

theorem toTVf_zero (P : UEnv) (fs : List (FInfo × Ty)) : TV.toGVf (UV.toTVf P.defs (fs.map fun f => P.zero f.2) fs) = fs.map fun f => (f.1, P.gzero f.2) := by
  induction fs with
  | nil => rfl
  | cons f fs ih => obtain ⟨i, t⟩ := f; simp only [List.map_cons, UV.toTVf, TV.toGVf, ih]; rfl

theorem gzero_struct {P : UEnv} (hw : P.defs.Wf) {n : Nat} {fs : List (FInfo × Ty)} (h : P.defs[n]? = some fs) :
    P.gzero (.struct n) = .struct (fs.map fun f => (f.1, P.gzero f.2)) := by
  have : (Ty.struct n).fields P.defs = fs := by simp [Ty.fields, List.getD_eq_getElem?_getD, h]
  simp only [UEnv.gzero, zero_struct hw h, UV.toTV, TV.toGV, this, toTVf_zero]

/-- Zero values of types that are neither arrays nor structs. -/
def Ty.Flat : Ty → Prop
  | .array _ _ => False
  | .struct _ => False
  | _ => True

theorem zero_flat {t : Ty} (ht : t.Flat) : ∃ (l : Leaf) (u : UV), P.gzero t = .leaf l ∧ P.hzero t = .val u ∧ P.zero t = u ∧ u.toTV P.defs t = .leaf l := by
  cases t <;> first | exact (show False from ht).elim | exact ⟨_, _, rfl, rfl, rfl, rfl⟩

theorem zero_shown_flat (hP : P.Ok) (t : Ty) (hf : t.Flat) (hv : t.Valid P.defs) : (P.gzero t).Shown P Θ R M t (P.hzero t) := by
  obtain ⟨l, u, h1, h2, h3, h4⟩ := zero_flat (P := P) hf
  rw [h1, h2]
  exact ⟨u, rfl, h3 ▸ zero_hasTy hP t hv, h4⟩

theorem zero_shown_step (hP : P.Ok) (n : Nat) (ih : ∀ m, m < n → ∀ (t : Ty), t.Below m → t.Valid P.defs → (P.gzero t).Shown P Θ R M t (P.hzero t)) :
    ∀ (t : Ty), t.Below n → t.Valid P.defs → (P.gzero t).Shown P Θ R M t (P.hzero t)
  | .array k t, hb, hv => by
    have iht := zero_shown_step hP n ih t hb hv
    rw [gzero_array, hzero_array]
    refine Or.inr ⟨t, _, by simp, rfl, (showns_iff _ _ _).2 ⟨by simp, fun q x c e1 e2 => ?_⟩⟩
    rw [List.getElem?_replicate] at e1 e2
    split at e1
    · simp_all
    · cases e1
  | .struct m, hb, hv => by
    obtain ⟨ds, hd⟩ : ∃ ds, P.defs[m]? = some ds := ⟨_, List.getElem?_eq_getElem hv⟩
    rw [gzero_struct hP.1 hd, hzero_struct hP.1 hd]
    refine ⟨m, ds, _, rfl, hd, rfl, (shownf_iff _ _ _).2 ⟨by simp, by simp, ?_⟩⟩
    intro q i x t c e1 e2 e3
    simp only [List.getElem?_map, e2, Option.map_some, Option.some.injEq, Prod.mk.injEq, true_and] at e1 e3
    subst e1 e3
    have hm := List.mem_of_getElem? e2
    exact ih m hb t (hP.1 m ds hd i t hm) (hP.2.1 m ds hd i t hm)
  | .bool, _, hv => zero_shown_flat hP _ trivial hv
  | .int _, _, hv => zero_shown_flat hP _ trivial hv
  | .uint _, _, hv => zero_shown_flat hP _ trivial hv
  | .float32, _, hv => zero_shown_flat hP _ trivial hv
  | .float64, _, hv => zero_shown_flat hP _ trivial hv
  | .string, _, hv => zero_shown_flat hP _ trivial hv
  | .slice _, _, hv => zero_shown_flat hP _ trivial hv
  | .map _, _, hv => zero_shown_flat hP _ trivial hv
  | .mapOther _, _, hv => zero_shown_flat hP _ trivial hv
  | .ptr _, _, hv => zero_shown_flat hP _ trivial hv
  | .any, _, hv => zero_shown_flat hP _ trivial hv
  | .jobj, _, hv => zero_shown_flat hP _ trivial hv
  | .jptr _, _, hv => zero_shown_flat hP _ trivial hv
  | .jval _, _, hv => zero_shown_flat hP _ trivial hv
  | .other, _, hv => zero_shown_flat hP _ trivial hv

theorem zero_shown (hP : P.Ok) (n : Nat) : ∀ (t : Ty), t.Below n → t.Valid P.defs → (P.gzero t).Shown P Θ R M t (P.hzero t) := by
  induction n using Nat.strongRecOn with
  | ind n ih => exact zero_shown_step hP n ih

/-! ### Descriptions -/

theorem descf_mem : ∀ {kvs : List (Bytes × J)} {n : Nat} {fs : List (FInfo × GV)} {ds : List (FInfo × Ty)}, J.Descf P h Θ Dg kvs n fs ds →
    ∀ k x, (k, x) ∈ kvs → ∃ (q : Nat) (i : FInfo) (y : GV) (t : Ty), P.idx n k = [q] ∧ fs[q]? = some (i, y) ∧ ds[q]? = some (i, t) ∧ x.Desc P h Θ Dg y t
  | [], _, _, _, _, k, x, hm => by cases hm
  | (k', x') :: r, n, fs, ds, hd, k, x, hm => by
    rw [J.Descf] at hd
    rcases List.mem_cons.1 hm with e | hm
    · cases e
      obtain ⟨⟨q, i, y, t, h1, h2, h3, _, h5⟩, _⟩ := hd
      exact ⟨q, i, y, t, h1, h2, h3, h5⟩
    · exact descf_mem hd.2 k x hm

theorem holdsf_mem {F : Nat → Prop} {D : Int → Option Loc} : ∀ {kvs : List (Bytes × J)} {n : Nat} {ds : List (FInfo × Ty)} {vs : List HV}, J.Holdsf P F M D kvs n ds vs →
    ∀ k x, (k, x) ∈ kvs → ∃ i info t c, P.idx n k = [i] ∧ ds[i]? = some (info, t) ∧ vs[i]? = some c ∧ x.Holds P F M D t c
  | [], _, _, _, _, k, x, hm => by cases hm
  | (k', x') :: r, n, ds, vs, hd, k, x, hm => by
    rw [J.Holdsf] at hd
    rcases List.mem_cons.1 hm with e | hm
    · cases e; exact hd.1
    · exact holdsf_mem hd.2 k x hm

theorem thru_end {F : Nat → Prop} {t t' : Ty} {c c' : HV} {o : Option Loc} (hn : ∀ t', t ≠ .ptr t') (h : Thru F M t c t' c' o) : t' = t ∧ c' = c ∧ o = none := by
  cases h with
  | here _ => exact ⟨rfl, rfl, rfl⟩
  | there _ _ _ => exact absurd rfl (hn _)

theorem thru_ptr {F : Nat → Prop} {t t' : Ty} {c c' : HV} {o : Option Loc} (hn : ∀ t', t ≠ .ptr t') (h : Thru F M (.ptr t) c t' c' o) :
    ∃ l, c = .ptr l ∧ memGet M l = some c' ∧ t' = t ∧ o = some l := by
  cases h with
  | here hh => exact absurd rfl (hh t)
  | there _ h2 h3 =>
    obtain ⟨rfl, rfl, rfl⟩ := thru_end hn h3
    exact ⟨_, rfl, h2, rfl, rfl⟩

theorem scalar_nonptr {t : Ty} (h : t.Scalar) : ∀ t', t ≠ .ptr t' := by
  intro t' e; subst e; exact h

/-- Location `l` has been filled from a document (no mere reference) that describes a pointer to `a`. -/
def FromDoc (P : UEnv) (h : List GV) (Θ : Nat → Ty) (Dg : Int → Nat) (F : Nat → Prop) (M : List HV) (D : Int → Option Loc) (E : List NodeEv) (a : Nat) (l : Loc) : Prop :=
  ∃ j : J, (∀ id, j ≠ .ptr id) ∧ (∀ id, .use id ∈ j.events → .use id ∈ E) ∧ j.Desc P h Θ Dg (.ptr a) (.ptr (Θ a)) ∧ j.Holds P F M D (.ptr (Θ a)) (.ptr l)

variable {F : Nat → Prop} {D : Int → Option Loc} {E : List NodeEv}

theorem scalar_shown {j : J} (hj : ∀ id, j ≠ .ptr id) (he : ∀ id, .use id ∈ j.events → .use id ∈ E) {g : GV} {t : Ty} {c : HV} (hd : DescScalar P h Θ j g t) (hh : HoldsScalar P F M j t c)
    (hd' : j.Desc P h Θ Dg g t) (hh' : j.Holds P F M D t c) : g.Shown P Θ (FromDoc P h Θ Dg F M D E) M t c := by
  obtain ⟨l, u, t', h1, h2, h3, h4, h5⟩ := hd
  obtain ⟨t'', c', o, k1, u', k2, k3⟩ := hh
  rcases h1 with ⟨rfl, rfl⟩ | ⟨a, rfl, q2, rfl, q4⟩
  · obtain ⟨rfl, rfl, _⟩ := thru_end (scalar_nonptr h2) k1
    rw [h5] at k2; cases k2
    exact ⟨u, k3, h3, h4⟩
  · obtain ⟨l', rfl, _⟩ := thru_ptr (scalar_nonptr h2) k1
    subst q4
    exact ⟨l', rfl, rfl, j, hj, he, hd', hh'⟩

theorem shownBody (hP : P.Ok) {kvs : List (Bytes × J)}
    (ihk : ∀ k x, (k, x) ∈ kvs → ∀ (g : GV) (t : Ty) (c : HV), x.Desc P h Θ Dg g t → x.Holds P F M D t c → g.Shown P Θ (FromDoc P h Θ Dg F M D E) M t c)
    (ihm : ∀ (ys : List (Bytes × GV)) (t : Ty) (cs : List (Bytes × HV)), J.Descm P h Θ Dg kvs ys t → J.Holdsm P F M D kvs t cs → GV.Shownm P Θ (FromDoc P h Θ Dg F M D E) M ys t cs) :
    ∀ (g : GV) (e : Ty) (c : HV), 
    ((∃ n ds fs, e = .struct n ∧ P.defs[n]? = some ds ∧ g = .struct fs ∧ fs.map (·.1) = ds.map (·.1) ∧ J.Descf P h Θ Dg kvs n fs ds ∧
        kvs.Pairwise (fun p q => P.idx n p.1 ≠ P.idx n q.1) ∧
        ∀ (q : Nat) (i : FInfo) (x : GV) (t : Ty), fs[q]? = some (i, x) → ds[q]? = some (i, t) → (∀ p ∈ kvs, P.idx n p.1 ≠ [q]) → x = P.gzero t) ∨
     (∃ e' m, e = .map e' ∧ g = .map m ∧ SMap.Sorted kvs ∧ J.Descm P h Θ Dg kvs m e')) →
    ((∃ n fs vs, e = .struct n ∧ P.defs[n]? = some fs ∧ c = .struct vs ∧ vs.length = fs.length ∧ J.Holdsf P F M D kvs n fs vs ∧
        ∀ i info ti, fs[i]? = some (info, ti) → (∀ p ∈ kvs, P.idx n p.1 ≠ [i]) → vs[i]? = some (P.hzero ti)) ∨
     (∃ e' b m, e = .map e' ∧ c = .map b ∧ F b ∧ M[b]? = some (.mapObj m) ∧ J.Holdsm P F M D kvs e' m)) → g.Shown P Θ (FromDoc P h Θ Dg F M D E) M e c := by
  intro g e c h1 h2
  rcases h1 with ⟨n, ds, fs, rfl, hds, rfl, hnm, hdf, _, hmiss⟩ | ⟨e', m, rfl, rfl, hs, hdm⟩ <;> rcases h2 with ⟨n', ds', vs, e1, e2, rfl, e4, e5, e6⟩ | ⟨e'', b, m', e1, rfl, _, e4, e5⟩ <;> cases e1
  · rw [hds] at e2; cases e2
    refine ⟨n, ds, vs, rfl, hds, rfl, (shownf_iff _ _ _).2 ⟨hnm, e4, ?_⟩⟩
    intro q i x t c a1 a2 a3
    by_cases hm : ∃ p ∈ kvs, P.idx n p.1 = [q]
    · obtain ⟨⟨k, y⟩, hm, hq⟩ := hm
      obtain ⟨q1, i1, y1, t1, b1, b2, b3, b4⟩ := descf_mem hdf k y hm
      obtain ⟨q2, i2, t2, c2, d1, d2, d3, d4⟩ := holdsf_mem e5 k y hm
      simp only at hq
      rw [hq] at b1 d1
      cases b1; cases d1
      rw [a1] at b2; cases b2
      rw [a2] at b3 d2; cases b3; cases d2
      rw [a3] at d3; cases d3
      exact ihk k y hm x t c b4 d4
    · have hm : ∀ p ∈ kvs, P.idx n p.1 ≠ [q] := fun p hp hq => hm ⟨p, hp, hq⟩
      have hx := hmiss q i x t a1 a2 hm
      have hc := e6 q i t a2 hm
      rw [a3] at hc; cases hc
      subst hx
      have hmem := List.mem_of_getElem? a2
      exact zero_shown hP n t (hP.1 n ds hds i t hmem) (hP.2.1 n ds hds i t hmem)
  · exact ⟨e', b, m', rfl, rfl, e4, ihm m e' m' hdm e5⟩

mutual
theorem shown (hP : P.Ok) (hE : ∀ id, .use id ∈ E → ∃ l, D id = some l ∧ FromDoc P h Θ Dg F M D E (Dg id) l) : ∀ (j : J) (g : GV) (t : Ty) (c : HV),
    (∀ id, .use id ∈ j.events → .use id ∈ E) → j.Desc P h Θ Dg g t → j.Holds P F M D t c → g.Shown P Θ (FromDoc P h Θ Dg F M D E) M t c
  | .null, g, t, c, he, hd, hh => by
    obtain ⟨rfl, hn⟩ := hd
    have hc : c = .val .nil := by
      have hh : c = P.hzero t := hh
      rw [hh]
      cases t <;> first | rfl | exact (show False from hn).elim
    exact ⟨.nil, hc, hn, rfl⟩
  | .ptr id, g, t, c, he, hd, hh => by
    obtain ⟨rfl, rfl, _⟩ := hd
    obtain ⟨l, hl, hr⟩ := hE id (he id (by simp [J.events]))
    rw [J.Holds, hl] at hh
    exact ⟨l, hh, rfl, hr⟩
  | .bool b, g, t, c, he, hd, hh => scalar_shown (by simp) he hd hh hd hh
  | .int b, g, t, c, he, hd, hh => scalar_shown (by simp) he hd hh hd hh
  | .float x b, g, t, c, he, hd, hh => scalar_shown (by simp) he hd hh hd hh
  | .str b, g, t, c, he, hd, hh => scalar_shown (by simp) he hd hh hd hh
  | .arr xs, g, t, c, he, hd, hh => by
    rw [J.Desc] at hd
    rw [J.Holds] at hh
    obtain ⟨ys, e, rfl, ht, hs⟩ := hd
    obtain ⟨t', c', o, k1, k2⟩ := hh
    have hl := descs_length hs
    have he' : ∀ id, .use id ∈ J.eventss xs → .use id ∈ E := fun id hi => he id (by rwa [J.events])
    have hn : ∀ t', t ≠ .ptr t' := by rcases ht with rfl | rfl <;> simp
    obtain ⟨rfl, rfl, _⟩ := thru_end hn k1
    rcases ht with rfl | rfl <;> rcases k2 with ⟨e', b, zs, q1, q2, _, q4, q5⟩ | ⟨n, e', zs, q1, q2, q3⟩ <;> cases q1
    · exact Or.inl ⟨e, b, zs, [], rfl, by rw [hl]; exact q2, by simpa using q4, showns hP hE xs ys e zs he' hs q5⟩
    · exact Or.inr ⟨e, zs, rfl, q2, showns hP hE xs ys e zs he' hs q3⟩
  | .dict id kvs, g, t, c, he, hd, hh => by
    have hd' := hd
    have hh' := hh
    rw [J.Desc] at hd
    rw [J.Holds] at hh
    obtain ⟨g', e, h1, h2⟩ := hd
    obtain ⟨t', c', o, k1, k2, k3⟩ := hh
    have hn : ∀ t', e ≠ .ptr t' := by rcases h2 with ⟨n, _, _, rfl, _⟩ | ⟨e', _, rfl, _⟩ <;> simp
    rcases h1 with ⟨rfl, rfl, h3⟩ | ⟨a, rfl, rfl, rfl, _⟩
    · obtain ⟨rfl, rfl, _⟩ := thru_end hn k1
      have he' : ∀ id, .use id ∈ J.eventsf kvs → .use id ∈ E := fun id hi => he id (by rw [J.events]; exact List.mem_append_right _ hi)
      exact shownBody hP (shownk hP hE kvs he') (fun ys t cs => shownm hP hE kvs ys t cs he') g t' c' h2 k3
    · obtain ⟨l, rfl, _, rfl, rfl⟩ := thru_ptr hn k1
      exact ⟨l, rfl, rfl, _, by simp, he, hd', hh'⟩
theorem showns (hP : P.Ok) (hE : ∀ id, .use id ∈ E → ∃ l, D id = some l ∧ FromDoc P h Θ Dg F M D E (Dg id) l) : ∀ (xs : List J) (ys : List GV) (t : Ty) (cs : List HV),
    (∀ id, .use id ∈ J.eventss xs → .use id ∈ E) → J.Descs P h Θ Dg xs ys t → J.Holdss P F M D xs t cs → GV.Showns P Θ (FromDoc P h Θ Dg F M D E) M ys t cs
  | [], ys, t, cs, he, hd, hh => by
    rw [J.Descs] at hd; rw [J.Holdss] at hh; subst hd hh; rfl
  | x :: xs, ys, t, cs, he, hd, hh => by
    rw [J.Descs] at hd; rw [J.Holdss] at hh
    obtain ⟨y, r, rfl, h1, h2⟩ := hd
    obtain ⟨c, r', rfl, k1, k2⟩ := hh
    exact ⟨c, r', rfl, shown hP hE x y t c (fun id hi => he id (by rw [J.eventss]; exact List.mem_append_left _ hi)) h1 k1,
      showns hP hE xs r t r' (fun id hi => he id (by rw [J.eventss]; exact List.mem_append_right _ hi)) h2 k2⟩
theorem shownm (hP : P.Ok) (hE : ∀ id, .use id ∈ E → ∃ l, D id = some l ∧ FromDoc P h Θ Dg F M D E (Dg id) l) : ∀ (xs : List (Bytes × J)) (ys : List (Bytes × GV)) (t : Ty) (cs : List (Bytes × HV)),
    (∀ id, .use id ∈ J.eventsf xs → .use id ∈ E) → J.Descm P h Θ Dg xs ys t → J.Holdsm P F M D xs t cs → GV.Shownm P Θ (FromDoc P h Θ Dg F M D E) M ys t cs
  | [], ys, t, cs, he, hd, hh => by
    rw [J.Descm] at hd; rw [J.Holdsm] at hh; subst hd hh; rfl
  | (k, x) :: xs, ys, t, cs, he, hd, hh => by
    rw [J.Descm] at hd; rw [J.Holdsm] at hh
    obtain ⟨y, r, rfl, h1, h2⟩ := hd
    obtain ⟨c, r', rfl, k1, k2⟩ := hh
    exact ⟨c, r', rfl, shown hP hE x y t c (fun id hi => he id (by rw [J.eventsf]; exact List.mem_append_left _ hi)) h1 k1,
      shownm hP hE xs r t r' (fun id hi => he id (by rw [J.eventsf]; exact List.mem_append_right _ hi)) h2 k2⟩
theorem shownk (hP : P.Ok) (hE : ∀ id, .use id ∈ E → ∃ l, D id = some l ∧ FromDoc P h Θ Dg F M D E (Dg id) l) : ∀ (xs : List (Bytes × J)),
    (∀ id, .use id ∈ J.eventsf xs → .use id ∈ E) → ∀ k x, (k, x) ∈ xs → ∀ (g : GV) (t : Ty) (c : HV), x.Desc P h Θ Dg g t → x.Holds P F M D t c →
      g.Shown P Θ (FromDoc P h Θ Dg F M D E) M t c
  | [], he, k, x, hm => by cases hm
  | (k', y) :: xs, he, k, x, hm => fun g t c h1 h2 => by
    rcases List.mem_cons.1 hm with e | hm
    · have : x = y := by cases e; rfl
      subst this
      exact shown hP hE x g t c (fun id hi => he id (by rw [J.eventsf]; exact List.mem_append_left _ hi)) h1 h2
    · exact shownk hP hE xs (fun id hi => he id (by rw [J.eventsf]; exact List.mem_append_right _ hi)) k x hm g t c h1 h2
end

/-! ### Every dictionary with a node id has been read into the location of that node -/

theorem struct_parts {n : Nat} {kvs : List (Bytes × J)} {fs : List (FInfo × GV)} {ds : List (FInfo × Ty)} {vs : List HV} (hd : J.Descf P h Θ Dg kvs n fs ds) (hh : J.Holdsf P F M D kvs n ds vs)
    {k : Bytes} {x : J} (hm : (k, x) ∈ kvs) : ∃ g t c, x.Desc P h Θ Dg g t ∧ x.Holds P F M D t c := by
  obtain ⟨q1, i1, y1, t1, b1, b2, b3, b4⟩ := descf_mem hd k x hm
  obtain ⟨q2, i2, t2, c2, d1, d2, d3, d4⟩ := holdsf_mem hh k x hm
  rw [b1] at d1; cases d1
  rw [b3] at d2; cases d2
  exact ⟨y1, t1, c2, b4, d4⟩

theorem map_parts : ∀ {kvs : List (Bytes × J)} {ys : List (Bytes × GV)} {t : Ty} {cs : List (Bytes × HV)}, J.Descm P h Θ Dg kvs ys t → J.Holdsm P F M D kvs t cs →
    ∀ {k : Bytes} {x : J}, (k, x) ∈ kvs → ∃ g c, x.Desc P h Θ Dg g t ∧ x.Holds P F M D t c
  | [], _, _, _, _, _, k, x, hm => by cases hm
  | (k', y) :: r, ys, t, cs, hd, hh, k, x, hm => by
    rw [J.Descm] at hd; rw [J.Holdsm] at hh
    obtain ⟨z, r1, rfl, h1, h2⟩ := hd
    obtain ⟨c, r', rfl, k1, k2⟩ := hh
    rcases List.mem_cons.1 hm with e | hm
    · cases e; exact ⟨z, c, h1, k1⟩
    · exact map_parts h2 k2 hm

/-- Whatever is in the dictionary describes something that has been read. -/
theorem dict_parts {id : Int} {kvs : List (Bytes × J)} {g : GV} {t : Ty} {c : HV} (hd : (J.dict id kvs).Desc P h Θ Dg g t) (hh : (J.dict id kvs).Holds P F M D t c)
    {k : Bytes} {x : J} (hm : (k, x) ∈ kvs) : ∃ g t c, x.Desc P h Θ Dg g t ∧ x.Holds P F M D t c := by
  rw [J.Desc] at hd
  rw [J.Holds] at hh
  obtain ⟨g', e, h1, h2⟩ := hd
  obtain ⟨t', c', o, k1, k2, k3⟩ := hh
  have hn : ∀ t', e ≠ .ptr t' := by rcases h2 with ⟨n, _, _, rfl, _⟩ | ⟨e', _, rfl, _⟩ <;> simp
  have ht : t' = e := by
    rcases h1 with ⟨rfl, rfl, h3⟩ | ⟨a, rfl, rfl, rfl, _⟩
    · exact (thru_end hn k1).1
    · obtain ⟨l, _, _, e, _⟩ := thru_ptr hn k1; exact e
  subst ht
  rcases h2 with ⟨n, ds, fs, rfl, hds, _, _, hdf, _, _⟩ | ⟨e', m, rfl, _, _, hdm⟩ <;> rcases k3 with ⟨n', ds', vs, e1, e2, _, _, e5, _⟩ | ⟨e'', b, m', e1, _, _, _, e5⟩ <;> cases e1
  · rw [hds] at e2; cases e2
    exact struct_parts hdf e5 hm
  · obtain ⟨g, c, q⟩ := map_parts hdm e5 hm
    exact ⟨g, e', c, q⟩

theorem arr_parts : ∀ {xs : List J} {ys : List GV} {t : Ty} {cs : List HV}, J.Descs P h Θ Dg xs ys t → J.Holdss P F M D xs t cs →
    ∀ {x : J}, x ∈ xs → ∃ g c, x.Desc P h Θ Dg g t ∧ x.Holds P F M D t c
  | [], _, _, _, _, _, x, hm => by cases hm
  | y :: r, ys, t, cs, hd, hh, x, hm => by
    rw [J.Descs] at hd; rw [J.Holdss] at hh
    obtain ⟨z, r1, rfl, h1, h2⟩ := hd
    obtain ⟨c, r', rfl, k1, k2⟩ := hh
    rcases List.mem_cons.1 hm with rfl | hm
    · exact ⟨z, c, h1, k1⟩
    · exact arr_parts h2 k2 hm

mutual
theorem defs_read : ∀ (j : J) (g : GV) (t : Ty) (c : HV), (∀ id, .use id ∈ j.events → .use id ∈ E) → j.Desc P h Θ Dg g t → j.Holds P F M D t c →
    ∀ id, .defn id ∈ j.events → ∃ l, D id = some l ∧ FromDoc P h Θ Dg F M D E (Dg id) l
  | .null, g, t, c, he, hd, hh, id, hm => by simp [J.events] at hm
  | .ptr _, g, t, c, he, hd, hh, id, hm => by simp [J.events] at hm
  | .bool _, g, t, c, he, hd, hh, id, hm => by simp [J.events] at hm
  | .int _, g, t, c, he, hd, hh, id, hm => by simp [J.events] at hm
  | .float _ _, g, t, c, he, hd, hh, id, hm => by simp [J.events] at hm
  | .str _, g, t, c, he, hd, hh, id, hm => by simp [J.events] at hm
  | .arr xs, g, t, c, he, hd, hh, id, hm => by
    rw [J.events] at hm
    rw [J.Desc] at hd
    rw [J.Holds] at hh
    obtain ⟨ys, e, rfl, ht, hs⟩ := hd
    obtain ⟨t', c', o, k1, k2⟩ := hh
    have hn : ∀ t', t ≠ .ptr t' := by rcases ht with rfl | rfl <;> simp
    obtain ⟨rfl, rfl, _⟩ := thru_end hn k1
    have : ∃ cs, J.Holdss P F M D xs e cs := by
      rcases ht with rfl | rfl <;> rcases k2 with ⟨e', b, zs, q1, q2, _, q4, q5⟩ | ⟨n, e', zs, q1, q2, q3⟩ <;> cases q1
      · exact ⟨_, q5⟩
      · exact ⟨_, q3⟩
    obtain ⟨cs, hcs⟩ := this
    exact defs_reads xs (fun id hi => he id (by rwa [J.events])) (fun x hx => by obtain ⟨g, c, q⟩ := arr_parts hs hcs hx; exact ⟨g, e, c, q⟩) id hm
  | .dict i kvs, g, t, c, he, hd, hh, id, hm => by
    rw [J.events] at hm
    rcases List.mem_append.1 hm with hm | hm
    · split at hm
      · rename_i hi
        simp only [List.mem_singleton, NodeEv.defn.injEq] at hm
        subst hm
        have hd' := hd
        have hh' := hh
        rw [J.Desc] at hd
        rw [J.Holds] at hh
        obtain ⟨g', e, h1, h2⟩ := hd
        obtain ⟨t', c', o, k1, k2, k3⟩ := hh
        have hn : ∀ t', e ≠ .ptr t' := by rcases h2 with ⟨n, _, _, rfl, _⟩ | ⟨e', _, rfl, _⟩ <;> simp
        rcases h1 with ⟨rfl, rfl, h3⟩ | ⟨a, rfl, rfl, rfl, _, h5⟩
        · omega
        · obtain ⟨l, rfl, _, rfl, rfl⟩ := thru_ptr hn k1
          refine ⟨l, (k2 hi).2, ?_⟩
          rw [h5 hi]
          exact ⟨_, by simp, he, hd', hh'⟩
      · simp at hm
    · exact defs_readf kvs (fun id hi => he id (by rw [J.events]; exact List.mem_append_right _ hi)) (fun k x hx => dict_parts hd hh hx) id hm
theorem defs_reads : ∀ (xs : List J), (∀ id, .use id ∈ J.eventss xs → .use id ∈ E) → (∀ x, x ∈ xs → ∃ g t c, x.Desc P h Θ Dg g t ∧ x.Holds P F M D t c) →
    ∀ id, .defn id ∈ J.eventss xs → ∃ l, D id = some l ∧ FromDoc P h Θ Dg F M D E (Dg id) l
  | [], he, hx, id, hm => by simp [J.eventss] at hm
  | x :: xs, he, hx, id, hm => by
    rw [J.eventss] at hm
    rcases List.mem_append.1 hm with hm | hm
    · obtain ⟨g, t, c, h1, h2⟩ := hx x (List.mem_cons_self ..)
      exact defs_read x g t c (fun id hi => he id (by rw [J.eventss]; exact List.mem_append_left _ hi)) h1 h2 id hm
    · exact defs_reads xs (fun id hi => he id (by rw [J.eventss]; exact List.mem_append_right _ hi)) (fun x hx' => hx x (List.mem_cons_of_mem _ hx')) id hm
theorem defs_readf : ∀ (xs : List (Bytes × J)), (∀ id, .use id ∈ J.eventsf xs → .use id ∈ E) → (∀ k x, (k, x) ∈ xs → ∃ g t c, x.Desc P h Θ Dg g t ∧ x.Holds P F M D t c) →
    ∀ id, .defn id ∈ J.eventsf xs → ∃ l, D id = some l ∧ FromDoc P h Θ Dg F M D E (Dg id) l
  | [], he, hx, id, hm => by simp [J.eventsf] at hm
  | (k, x) :: xs, he, hx, id, hm => by
    rw [J.eventsf] at hm
    rcases List.mem_append.1 hm with hm | hm
    · obtain ⟨g, t, c, h1, h2⟩ := hx k x (List.mem_cons_self ..)
      exact defs_read x g t c (fun id hi => he id (by rw [J.eventsf]; exact List.mem_append_left _ hi)) h1 h2 id hm
    · exact defs_readf xs (fun id hi => he id (by rw [J.eventsf]; exact List.mem_append_right _ hi)) (fun k x hx' => hx k x (List.mem_cons_of_mem _ hx')) id hm
end

theorem looks_fromDoc (hP : P.Ok) (hE : ∀ id, .use id ∈ E → ∃ l, D id = some l ∧ FromDoc P h Θ Dg F M D E (Dg id) l) : Looks P h Θ M (FromDoc P h Θ Dg F M D E) := by
  intro a l hr
  obtain ⟨j, hj, he, hd, hh⟩ := hr
  have scalar : DescScalar P h Θ j (.ptr a) (.ptr (Θ a)) → HoldsScalar P F M j (.ptr (Θ a)) (.ptr l) →
      ∃ g c, h[a]? = some g ∧ memGet M l = some c ∧ g.Shown P Θ (FromDoc P h Θ Dg F M D E) M (Θ a) c := by
    intro hd hh
    obtain ⟨lf, u, t', h1, h2, h3, h4, h5⟩ := hd
    obtain ⟨t'', c', o, k1, u', k2, k3⟩ := hh
    rcases h1 with ⟨e, _⟩ | ⟨a', e1, q2, e3, q4⟩
    · cases e
    · cases e1; cases e3
      obtain ⟨l', e, k4, rfl, _⟩ := thru_ptr (scalar_nonptr h2) k1
      cases e
      rw [h5] at k2; cases k2
      exact ⟨_, c', q2, k4, u, k3, h3, h4⟩
  cases j with
  | null => obtain ⟨e, _⟩ := hd; cases e
  | ptr id => exact absurd rfl (hj id)
  | arr xs => rw [J.Desc] at hd; obtain ⟨ys, e, e1, _⟩ := hd; cases e1
  | bool _ => exact scalar hd hh
  | int _ => exact scalar hd hh
  | float _ _ => exact scalar hd hh
  | str _ => exact scalar hd hh
  | dict id kvs =>
    rw [J.Desc] at hd
    rw [J.Holds] at hh
    obtain ⟨g', e, h1, h2⟩ := hd
    obtain ⟨t', c', o, k1, k2, k3⟩ := hh
    have hn : ∀ t', e ≠ .ptr t' := by rcases h2 with ⟨n, _, _, rfl, _⟩ | ⟨e', _, rfl, _⟩ <;> simp
    rcases h1 with ⟨_, e2, _⟩ | ⟨a', e1, e2, _, h4, _⟩
    · exact absurd e2.symm (hn _)
    · cases e1; cases e2
      obtain ⟨l', e, k4, rfl, _⟩ := thru_ptr hn k1
      cases e
      have he' : ∀ id, .use id ∈ J.eventsf kvs → .use id ∈ E := fun id hi => he id (by rw [J.events]; exact List.mem_append_right _ hi)
      exact ⟨g', c', h4, k4, shownBody hP (shownk hP hE kvs he') (fun ys t cs => shownm hP hE kvs ys t cs he') g' (Θ a) c' h2 k3⟩

end
end Jsonutils
