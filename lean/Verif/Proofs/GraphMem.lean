import Verif.Spec.Graph
import Verif.Proofs.UnmarshalBase

/-! Memory: reading and writing locations. -/

namespace Jsonutils

/-! ### Inside a value -/

theorem child_setChild {v c w : HV} {i : Nat} (h : v.child i = some c) : (v.setChild i w).child i = some w := by
  cases v <;> simp [HV.child, HV.setChild] at h ⊢
  · obtain ⟨hi, _⟩ := List.getElem?_eq_some_iff.1 h; simp [hi]
  · obtain ⟨hi, _⟩ := List.getElem?_eq_some_iff.1 h; simp [hi]

theorem setChild_setChild (v w w' : HV) (i : Nat) : (v.setChild i w).setChild i w' = v.setChild i w' := by
  cases v <;> simp [HV.setChild]

theorem setChild_child {v c : HV} {i : Nat} (h : v.child i = some c) : v.setChild i c = v := by
  cases v <;> simp [HV.child, HV.setChild] at h ⊢
  all_goals
    obtain ⟨hi, rfl⟩ := List.getElem?_eq_some_iff.1 h
    exact List.set_getElem_self hi

theorem at_append (v : HV) (p q : List Nat) : v.at (p ++ q) = (v.at p).bind (·.at q) := by
  induction p generalizing v with
  | nil => rfl
  | cons i p ih =>
    simp only [List.cons_append, HV.at]
    cases v.child i with
    | none => rfl
    | some c => exact ih c

theorem at_put {v c : HV} {p : List Nat} (h : v.at p = some c) (w : HV) : (v.put p w).at p = some w := by
  induction p generalizing v with
  | nil => rfl
  | cons i p ih =>
    simp only [HV.at, HV.put] at h ⊢
    cases hc : v.child i with
    | none => rw [hc] at h; cases h
    | some d =>
      rw [hc] at h
      simp only at h ⊢
      rw [child_setChild hc]
      exact ih h

theorem put_put {v c : HV} {p : List Nat} (h : v.at p = some c) (a b : HV) : (v.put p a).put p b = v.put p b := by
  induction p generalizing v with
  | nil => rfl
  | cons i p ih =>
    simp only [HV.at, HV.put] at h ⊢
    cases hc : v.child i with
    | none => rw [hc] at h; cases h
    | some d =>
      rw [hc] at h
      simp only at h ⊢
      rw [child_setChild hc]
      simp only
      rw [setChild_setChild, ih h]

theorem put_at {v c : HV} {p : List Nat} (h : v.at p = some c) : v.put p c = v := by
  induction p generalizing v with
  | nil => simp only [HV.at] at h; cases h; rfl
  | cons i p ih =>
    simp only [HV.at, HV.put] at h ⊢
    cases hc : v.child i with
    | none => rfl
    | some d =>
      rw [hc] at h
      simp only at h ⊢
      rw [ih h, setChild_child hc]

theorem put_append {v c : HV} {p : List Nat} (h : v.at p = some c) (q : List Nat) (w : HV) : v.put (p ++ q) w = v.put p (c.put q w) := by
  induction p generalizing v with
  | nil => simp only [HV.at] at h; cases h; rfl
  | cons i p ih =>
    simp only [HV.at, HV.put, List.cons_append] at h ⊢
    cases hc : v.child i with
    | none => simp [hc] at h
    | some d =>
      rw [hc] at h
      simp only at h ⊢
      rw [ih h]

/-! ### Memory -/

theorem memGet_lt {M : List HV} {l : Loc} {c : HV} (h : memGet M l = some c) : l.base < M.length := by
  unfold memGet at h
  cases hb : M[l.base]? with
  | none => rw [hb] at h; cases h
  | some o => exact (List.getElem?_eq_some_iff.1 hb).1

theorem memGet_obj (M : List HV) (b : Nat) : memGet M ⟨b, []⟩ = M[b]? := by
  unfold memGet
  cases h : M[b]? <;> simp [HV.at]

theorem memGet_congr {M M' : List HV} {l : Loc} (h : M'[l.base]? = M[l.base]?) : memGet M' l = memGet M l := by
  unfold memGet; rw [h]

theorem memGet_append {M : List HV} {l : Loc} (h : l.base < M.length) (N : List HV) : memGet (M ++ N) l = memGet M l :=
  memGet_congr (List.getElem?_append_left h)

theorem memSet_length (M : List HV) (l : Loc) (c : HV) : (memSet M l c).length = M.length := by
  unfold memSet
  split <;> simp

theorem memSet_append {M : List HV} {l : Loc} (h : l.base < M.length) (N : List HV) (c : HV) : memSet (M ++ N) l c = memSet M l c ++ N := by
  unfold memSet
  rw [List.getElem?_append_left h]
  cases hb : M[l.base]? with
  | none => rfl
  | some o => simp only; rw [List.set_append_left _ _ h]

theorem memGet_set {M : List HV} {l : Loc} {c : HV} (h : memGet M l = some c) (w : HV) : memGet (memSet M l w) l = some w := by
  have hlt := memGet_lt h
  unfold memGet memSet at *
  cases hb : M[l.base]? with
  | none => rw [hb] at h; cases h
  | some o =>
    rw [hb] at h
    simp only at h ⊢
    rw [List.getElem?_set_self hlt]
    exact at_put h w

theorem memSet_set {M : List HV} {l : Loc} {c : HV} (h : memGet M l = some c) (a b : HV) : memSet (memSet M l a) l b = memSet M l b := by
  have hlt := memGet_lt h
  unfold memGet memSet at *
  cases hb : M[l.base]? with
  | none => rw [hb] at h; cases h
  | some o =>
    rw [hb] at h
    simp only at h ⊢
    rw [List.getElem?_set_self hlt]
    simp only
    rw [put_put h, List.set_set]

theorem memSet_self {M : List HV} {l : Loc} {c : HV} (h : memGet M l = some c) : memSet M l c = M := by
  unfold memGet memSet at *
  cases hb : M[l.base]? with
  | none => rfl
  | some o =>
    rw [hb] at h
    simp only at h ⊢
    rw [put_at h]
    obtain ⟨hi, rfl⟩ := List.getElem?_eq_some_iff.1 hb
    exact List.set_getElem_self hi

theorem memSet_obj_ne {M : List HV} {l : Loc} {c : HV} {b : Nat} (h : b ≠ l.base) : (memSet M l c)[b]? = M[b]? := by
  unfold memSet
  split
  · exact List.getElem?_set_ne (fun h' => h h'.symm)
  · rfl

theorem memGet_set_ne {M : List HV} {l l' : Loc} {c : HV} (h : l'.base ≠ l.base) : memGet (memSet M l c) l' = memGet M l' :=
  memGet_congr (memSet_obj_ne h)

theorem memGet_sub {M : List HV} {l : Loc} {c : HV} (h : memGet M l = some c) (i : Nat) : memGet M (l.sub i) = c.child i := by
  unfold memGet at *
  simp only [Loc.sub]
  cases hb : M[l.base]? with
  | none => rw [hb] at h; cases h
  | some o =>
    rw [hb] at h
    simp only at h ⊢
    rw [at_append, h]
    simp only [Option.bind, HV.at]
    cases c.child i <;> rfl

theorem memSet_sub {M : List HV} {l : Loc} {c d : HV} (h : memGet M l = some c) {i : Nat} (hd : c.child i = some d) (w : HV) :
    memSet M (l.sub i) w = memSet M l (c.setChild i w) := by
  unfold memGet memSet at *
  simp only [Loc.sub]
  cases hb : M[l.base]? with
  | none => rfl
  | some o =>
    rw [hb] at h
    simp only at h ⊢
    rw [put_append h]
    simp only [HV.put, hd]

theorem memGet_new (M : List HV) (o : HV) (N : List HV) (p : List Nat) : memGet (M ++ o :: N) ⟨M.length, p⟩ = o.at p := by
  simp [memGet]

theorem memSet_new (M : List HV) (o : HV) (N : List HV) (p : List Nat) (w : HV) : memSet (M ++ o :: N) ⟨M.length, p⟩ w = M ++ o.put p w :: N := by
  simp [memSet]

theorem memSet_obj {M : List HV} {b : Nat} (h : b < M.length) (w : HV) : memSet M ⟨b, []⟩ w = M.set b w := by
  simp only [memSet, HV.put, List.getElem?_eq_getElem h]

/-! ### Zero values -/

theorem inlines_map (vs : List UV) : UV.inlines vs = vs.map UV.inline := by
  induction vs with
  | nil => rfl
  | cons v vs ih => simp [UV.inlines, ih]

theorem hzero_ptr (P : UEnv) (t : Ty) : P.hzero (.ptr t) = .val .nil := rfl
theorem hzero_slice (P : UEnv) (t : Ty) : P.hzero (.slice t) = .val .nil := rfl
theorem hzero_map (P : UEnv) (t : Ty) : P.hzero (.map t) = .val .nil := rfl
theorem hzero_array (P : UEnv) (n : Nat) (t : Ty) : P.hzero (.array n t) = .arr (List.replicate n (P.hzero t)) := by
  have : P.zero (.array n t) = .arr (List.replicate n (P.zero t)) := rfl
  simp only [UEnv.hzero, this, UV.inline, inlines_map, List.map_replicate]

theorem hzero_struct {P : UEnv} (hw : P.defs.Wf) {n : Nat} {fs : List (FInfo × Ty)} (h : P.defs[n]? = some fs) :
    P.hzero (.struct n) = .struct (fs.map fun f => P.hzero f.2) := by
  have : P.zero (.struct n) = .struct (fs.map fun f => P.zero f.2) := zero_struct hw h
  simp only [UEnv.hzero, this, UV.inline, inlines_map, List.map_map]
  rfl

theorem hzero_scalar (P : UEnv) {t : Ty} (h : t.ScalarChain) : P.hzero t = .val (P.zero t) := by
  cases t <;> first | rfl | exact (show False from h).elim

end Jsonutils
