import Verif.Spec.GraphRT
import Verif.Proofs.GraphRoot
import Verif.Proofs.UnmarshalRT
import Verif.Proofs.UnmarshalTyped

/-! # Documents that describe a pointer graph -/

namespace Jsonutils

section
variable (P : UEnv) (h : List GV) (Θ : Nat → Ty) (Dg : Int → Nat)

/-- The document of a scalar, or of a pointer to one. -/
def DescScalar (j : J) (g : GV) (t : Ty) : Prop :=
  ∃ (l : Leaf) (u : UV) (t' : Ty), ((g = .leaf l ∧ t = t') ∨ ∃ a, g = .ptr a ∧ h[a]? = some (.leaf l) ∧ t = .ptr t' ∧ Θ a = t') ∧
    t'.Scalar ∧ u.HasTy P.defs t' ∧ u.toTV P.defs t' = .leaf l ∧ j.unm P t' (P.zero t') = uok u

mutual
/-- The document describes the value `g` of type `t`. -/
def J.Desc : J → GV → Ty → Prop
  | .null, g, t => g = .leaf .nil ∧ t.Nilable
  | .ptr id, g, t => g = .ptr (Dg id) ∧ t = .ptr (Θ (Dg id)) ∧ (Θ (Dg id)).isStructOrMap = true
  | .arr xs, g, t => ∃ ys e, g = .seq ys ∧ (t = .slice e ∨ t = .array ys.length e) ∧ J.Descs xs ys e
  | .dict id kvs, g, t => ∃ g' e, ((g = g' ∧ t = e ∧ id ≤ 0) ∨ ∃ a, g = .ptr a ∧ t = .ptr e ∧ Θ a = e ∧ h[a]? = some g' ∧ (0 < id → Dg id = a)) ∧
    ((∃ n ds fs, e = .struct n ∧ P.defs[n]? = some ds ∧ g' = .struct fs ∧ fs.map (·.1) = ds.map (·.1) ∧ J.Descf kvs n fs ds ∧
        kvs.Pairwise (fun p q => P.idx n p.1 ≠ P.idx n q.1) ∧
        ∀ (q : Nat) (i : FInfo) (x : GV) (t : Ty), fs[q]? = some (i, x) → ds[q]? = some (i, t) → (∀ p ∈ kvs, P.idx n p.1 ≠ [q]) → x = P.gzero t) ∨
     (∃ e' m, e = .map e' ∧ g' = .map m ∧ SMap.Sorted kvs ∧ J.Descm kvs m e'))
  | .bool b, g, t => DescScalar P h Θ (.bool b) g t
  | .int n, g, t => DescScalar P h Θ (.int n) g t
  | .float x b, g, t => DescScalar P h Θ (.float x b) g t
  | .str s, g, t => DescScalar P h Θ (.str s) g t
def J.Descs : List J → List GV → Ty → Prop
  | [], ys, _ => ys = []
  | x :: xs, ys, t => ∃ y r, ys = y :: r ∧ x.Desc y t ∧ J.Descs xs r t
def J.Descm : List (Bytes × J) → List (Bytes × GV) → Ty → Prop
  | [], ys, _ => ys = []
  | (k, x) :: xs, ys, t => ∃ y r, ys = (k, y) :: r ∧ x.Desc y t ∧ J.Descm xs r t
def J.Descf : List (Bytes × J) → Nat → List (FInfo × GV) → List (FInfo × Ty) → Prop
  | [], _, _, _ => True
  | (k, x) :: xs, n, fs, ds => (∃ (q : Nat) (i : FInfo) (y : GV) (t : Ty), P.idx n k = [q] ∧ fs[q]? = some (i, y) ∧ ds[q]? = some (i, t) ∧ i.deprecatedBy = none ∧ x.Desc y t) ∧
    J.Descf xs n fs ds
end
end

section
variable {P : UEnv} {h : List GV} {Θ : Nat → Ty} {Dg : Int → Nat}

theorem scalar_chain {t : Ty} (h : t.Scalar) : t.ScalarChain ∧ t.chainEnd = t := by
  cases t <;> first | exact (show False from h).elim | exact ⟨trivial, rfl⟩

theorem descScalar_fits {j : J} {g : GV} {t : Ty} (hd : DescScalar P h Θ j g t) : FitsScalar P j t := by
  obtain ⟨l, u, t', h1, h2, h3, h4, h5⟩ := hd
  obtain ⟨k1, k2⟩ := scalar_chain h2
  rcases h1 with ⟨_, rfl⟩ | ⟨a, _, _, rfl, _⟩
  · exact ⟨k1, u, by rw [k2]; exact h5⟩
  · exact ⟨k1, u, by rw [Ty.chainEnd, k2]; exact h5⟩

theorem descs_length {P : UEnv} {h : List GV} {Θ : Nat → Ty} {Dg : Int → Nat} : ∀ {xs : List J} {ys : List GV} {t : Ty}, J.Descs P h Θ Dg xs ys t → ys.length = xs.length
  | [], ys, t, h => by rw [J.Descs] at h; rw [h]; rfl
  | x :: xs, ys, t, h => by
    rw [J.Descs] at h
    obtain ⟨y, r, rfl, _, h2⟩ := h
    simp [descs_length h2]

mutual
theorem desc_fits : ∀ (j : J) (g : GV) (t : Ty), j.Desc P h Θ Dg g t → j.Fits P (fun id => Θ (Dg id)) t
  | .null, g, t, _ => trivial
  | .ptr id, g, t, hd => ⟨hd.2.1, hd.2.2⟩
  | .bool _, g, t, hd => descScalar_fits hd
  | .int _, g, t, hd => descScalar_fits hd
  | .float _ _, g, t, hd => descScalar_fits hd
  | .str _, g, t, hd => descScalar_fits hd
  | .arr xs, g, t, hd => by
    rw [J.Desc] at hd
    obtain ⟨ys, e, _, ht, hs⟩ := hd
    have hl := descs_length hs
    have := descs_fits xs ys e hs
    rcases ht with rfl | rfl
    · exact ⟨_, Or.inl rfl, this⟩
    · exact ⟨_, Or.inl rfl, hl, this⟩
  | .dict id kvs, g, t, hd => by
    rw [J.Desc] at hd
    obtain ⟨g', e, h1, h2⟩ := hd
    refine ⟨e, ?_, ?_, ?_⟩
    · rcases h1 with ⟨_, h1, h3⟩ | ⟨a, _, h1, _⟩
      · exact Or.inl ⟨h1, h3⟩
      · exact Or.inr h1
    · intro hi
      rcases h1 with ⟨_, _, h3⟩ | ⟨a, _, _, h3, _, h4⟩
      · omega
      · simp only [h4 hi, h3]
    · rcases h2 with ⟨n, ds, fs, rfl, k2, k3, k4, k5, k6, _⟩ | ⟨e', m, rfl, k2, k3, k4⟩
      · exact ⟨ds, k2, descf_fits kvs n fs ds k5, k6⟩
      · exact ⟨k3, descm_fits kvs m e' k4⟩
theorem descs_fits : ∀ (xs : List J) (ys : List GV) (t : Ty), J.Descs P h Θ Dg xs ys t → J.Fitss P (fun id => Θ (Dg id)) xs t
  | [], _, _, _ => trivial
  | x :: xs, ys, t, hd => by
    rw [J.Descs] at hd
    obtain ⟨y, r, _, h1, h2⟩ := hd
    exact ⟨desc_fits x y t h1, descs_fits xs r t h2⟩
theorem descm_fits : ∀ (xs : List (Bytes × J)) (ys : List (Bytes × GV)) (t : Ty), J.Descm P h Θ Dg xs ys t → J.Fitsm P (fun id => Θ (Dg id)) xs t
  | [], _, _, _ => trivial
  | (k, x) :: xs, ys, t, hd => by
    rw [J.Descm] at hd
    obtain ⟨y, r, _, h1, h2⟩ := hd
    exact ⟨desc_fits x y t h1, descm_fits xs r t h2⟩
theorem descf_fits : ∀ (xs : List (Bytes × J)) (n : Nat) (fs : List (FInfo × GV)) (ds : List (FInfo × Ty)), J.Descf P h Θ Dg xs n fs ds →
    J.Fitsf P (fun id => Θ (Dg id)) xs n ds
  | [], _, _, _, _ => trivial
  | (k, x) :: xs, n, fs, ds, hd => by
    rw [J.Descf] at hd
    obtain ⟨⟨q, i, y, t, h1, h2, h3, h4, h5⟩, h6⟩ := hd
    exact ⟨⟨q, i, t, h1, h3, h4, desc_fits x y t h5⟩, descf_fits xs n fs ds h6⟩
end

end
end Jsonutils
