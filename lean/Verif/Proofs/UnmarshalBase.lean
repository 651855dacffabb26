import Verif.Spec.Unmarshal
import Verif.Proofs.MarshalStruct
import Verif.Proofs.Reread
import Verif.Proofs.FloatCanon

/-! Arithmetic, zero values, allocation. -/

namespace Jsonutils

/-! ### Conversions -/

theorem wrapI_range (b : Nat) (hb : 0 < b) (n : Int) (h1 : -2 ^ (b - 1) ≤ n) (h2 : n < 2 ^ (b - 1)) : wrapI b n = n := by
  unfold wrapI
  have h : (2 : Int) ^ b = 2 * 2 ^ (b - 1) := by
    obtain ⟨c, rfl⟩ : ∃ c, b = c + 1 := ⟨b - 1, by omega⟩
    rw [Int.pow_succ]; simp; omega
  rw [h, Int.emod_eq_of_lt (by omega) (by omega)]
  omega

theorem wrapI_dvd (b : Nat) (n : Int) : ∃ q, wrapI b n = n + 2 ^ b * q := by
  unfold wrapI
  refine ⟨-((n + 2 ^ (b - 1)) / 2 ^ b), ?_⟩
  have := Int.mul_ediv_add_emod (n + 2 ^ (b - 1)) (2 ^ b)
  rw [Int.mul_neg]
  omega

theorem wrapI_bounds (b : Nat) (hb : 0 < b) (n : Int) : -2 ^ (b - 1) ≤ wrapI b n ∧ wrapI b n < 2 ^ (b - 1) := by
  unfold wrapI
  have h : (2 : Int) ^ b = 2 * 2 ^ (b - 1) := by
    obtain ⟨c, rfl⟩ : ∃ c, b = c + 1 := ⟨b - 1, by omega⟩
    rw [Int.pow_succ]; simp; omega
  have hp : (0 : Int) < 2 ^ (b - 1) := Int.pow_pos (by decide)
  have h1 := Int.emod_nonneg (n + 2 ^ (b - 1)) (b := 2 ^ b) (by omega)
  have h2 := Int.emod_lt_of_pos (n + 2 ^ (b - 1)) (b := 2 ^ b) (by omega)
  omega

theorem wrapU_bounds (b : Nat) (n : Int) : 0 ≤ wrapU b n ∧ wrapU b n < 2 ^ b := by
  unfold wrapU
  have hp : (0 : Int) < 2 ^ b := Int.pow_pos (by decide)
  exact ⟨Int.emod_nonneg _ (by omega), Int.emod_lt_of_pos _ hp⟩

theorem pow_split {b c : Nat} (h : b ≤ c) : ∃ r : Int, (2 : Int) ^ c = 2 ^ b * r :=
  ⟨2 ^ (c - b), by rw [← Int.pow_add]; congr 1; omega⟩

/-- A signed integer of at most 64 bits comes back from int64. -/
theorem wrapI_back (b : Nat) (hb : 0 < b) (hb' : b ≤ 64) (n : Int) (h1 : -2 ^ (b - 1) ≤ n) (h2 : n < 2 ^ (b - 1)) : wrapI b (wrapI 64 n) = n := by
  have hle : (2 : Int) ^ (b - 1) ≤ 2 ^ (64 - 1) := by
    have : b - 1 ≤ 64 - 1 := by omega
    obtain ⟨r, hr⟩ := pow_split this
    have hp : (0 : Int) < 2 ^ (b - 1) := Int.pow_pos (by decide)
    have hq : (0 : Int) < 2 ^ (64 - 1) := Int.pow_pos (by decide)
    have : 0 < r := by
      rcases Int.lt_or_le 0 r with h | h
      · exact h
      · have : (2 : Int) ^ (b - 1) * r ≤ 0 := Int.mul_nonpos_of_nonneg_of_nonpos (by omega) h
        rw [← hr] at this; omega
    rw [hr]
    calc (2 : Int) ^ (b - 1) = 2 ^ (b - 1) * 1 := by omega
      _ ≤ 2 ^ (b - 1) * r := Int.mul_le_mul_of_nonneg_left (by omega) (by omega)
  rw [wrapI_range 64 (by omega) n (by omega) (by omega), wrapI_range b hb n h1 h2]

/-- So does an unsigned one, though int64 shows it negative. -/
theorem wrapU_back (b : Nat) (hb' : b ≤ 64) (n : Int) (h1 : 0 ≤ n) (h2 : n < 2 ^ b) : wrapU b (wrapI 64 n) = n := by
  obtain ⟨q, hq⟩ := wrapI_dvd 64 n
  obtain ⟨r, hr⟩ := pow_split hb'
  unfold wrapU
  rw [hq, hr, Int.mul_assoc, Int.add_mul_emod_self_left, Int.emod_eq_of_lt h1 h2]

theorem canon_zero' {f : FFmt} (hp : 0 < f.prec) {m e : Nat} (h : Canon f m e) (hm : m = 0) : e = 0 := by
  obtain ⟨_, _, h3⟩ := h
  have : 0 < 2 ^ (f.prec - 1) := Nat.pow_pos (by decide)
  omega

theorem roundPos_zeroNum (f : FFmt) (hp : 0 < f.prec) (d : Nat) : roundPos f 0 d = some (0, 0) := by
  unfold roundPos
  have hz : roundDiv 0 (d * 2 ^ 0) = 0 := by
    unfold roundDiv; simp
  have hlog : Nat.log2 0 = 0 := by decide
  simp only [Nat.zero_mul, Nat.zero_div, hlog, Nat.zero_add]
  have : 1 - f.prec = 0 := by omega
  rw [this, hz]
  have : (0 : Nat) ≠ 2 ^ f.prec := by have : 0 < 2 ^ f.prec := Nat.pow_pos (by decide); omega
  simp only [this, if_false, Nat.not_lt_zero]

theorem round_twice (f g : FFmt) (hf : 0 < f.prec) (hg : 0 < g.prec) (m e m' e' : Nat) (hc : Canon g m e) (hc' : Canon f m' e')
    (heq : m * 2 ^ e * 2 ^ f.bias = m' * 2 ^ e' * 2 ^ g.bias) :
    ∃ a b, roundPos f (m * 2 ^ e) (2 ^ g.bias) = some (a, b) ∧ roundPos g (a * 2 ^ b) (2 ^ f.bias) = some (m, e) := by
  by_cases hm : m = 0
  · subst hm
    have := canon_zero' hg hc rfl
    subst this
    rw [Nat.zero_mul, roundPos_zeroNum f hf]
    exact ⟨0, 0, rfl, by rw [Nat.zero_mul, roundPos_zeroNum g hg]⟩
  · have hm' : 0 < m' := by
      rcases Nat.eq_zero_or_pos m' with h | h
      · subst h
        rw [Nat.zero_mul, Nat.zero_mul] at heq
        have : 0 < m * 2 ^ e * 2 ^ f.bias := Nat.mul_pos (Nat.mul_pos (by omega) (Nat.pow_pos (by decide))) (Nat.pow_pos (by decide))
        omega
      · exact h
    exact ⟨m', e', roundPos_exact f m' e' _ _ hf hc' hm' (Nat.pow_pos (by decide)) heq,
      roundPos_exact g m e _ _ hg hc (by omega) (Nat.pow_pos (by decide)) heq.symm⟩

theorem roundVia_exact (f g : FFmt) (hf : 0 < f.prec) (hg : 0 < g.prec) (neg : Bool) (m e m' e' : Nat) (hc : Canon g m e) (hc' : Canon f m' e')
    (heq : m * 2 ^ e * 2 ^ f.bias = m' * 2 ^ e' * 2 ^ g.bias) : roundVia f g neg m e = .fin neg m e := by
  obtain ⟨a, b, h1, h2⟩ := round_twice f g hf hg m e m' e' hc hc' heq
  simp only [roundVia, h1, h2]

theorem toF32_isF32 (x : GoFloat) (h : x.IsF32) : toF32 x = x := by
  cases x with
  | nan => rfl
  | inf => rfl
  | fin neg m e =>
    obtain ⟨hc, m', e', hc', heq⟩ := h
    exact roundVia_exact f32 f64 (by decide) (by decide) neg m e m' e' hc hc' heq

/-! ### Zero values -/

theorem zerosOf_length : ∀ (D : Defs) (zs : List UV), (zerosOf D zs).length = zs.length + D.length
  | [], zs => by simp [zerosOf]
  | fs :: r, zs => by
    simp only [zerosOf]; rw [zerosOf_length]
    simp only [List.length_append, List.length_cons, List.length_nil]; omega

theorem zerosOf_prefix : ∀ (D : Defs) (zs : List UV) (n : Nat), n < zs.length → (zerosOf D zs)[n]? = zs[n]?
  | [], zs, n, _ => rfl
  | fs :: r, zs, n, h => by
    simp only [zerosOf]
    rw [zerosOf_prefix r _ n (by simp; omega), List.getElem?_append_left h]

theorem zeroIn_below {zs zs' : List UV} {n : Nat} (h : ∀ m, m < n → zs[m]? = zs'[m]?) : ∀ (t : Ty), t.Below n → t.zeroIn zs = t.zeroIn zs'
  | .struct m, hb => by
    simp only [Ty.Below] at hb
    simp only [Ty.zeroIn, List.getD_eq_getElem?_getD, h m hb]
  | .array _ t, hb => by
    simp only [Ty.Below] at hb
    simp only [Ty.zeroIn, zeroIn_below h t hb]
  | .bool, _ => rfl
  | .int _, _ => rfl
  | .uint _, _ => rfl
  | .float32, _ => rfl
  | .float64, _ => rfl
  | .string, _ => rfl
  | .slice _, _ => rfl
  | .map _, _ => rfl
  | .mapOther _, _ => rfl
  | .ptr _, _ => rfl
  | .any, _ => rfl
  | .jobj, _ => rfl
  | .jptr _, _ => rfl
  | .jval _, _ => rfl
  | .other, _ => rfl

theorem zerosOf_get : ∀ (D : Defs) (zs : List UV), (∀ n fs, D[n]? = some fs → ∀ (i : FInfo) (t : Ty), (i, t) ∈ fs → t.Below (zs.length + n)) →
    ∀ n fs, D[n]? = some fs → (zerosOf D zs)[zs.length + n]? = some (.struct (fs.map fun f => f.2.zeroIn (zerosOf D zs)))
  | [], _, _, n, fs, h => by simp at h
  | fs0 :: r, zs, hb, n, fs, h => by
    simp only [zerosOf]
    cases n with
    | zero =>
      simp only [List.getElem?_cons_zero, Option.some.injEq] at h
      subst h
      rw [zerosOf_prefix _ _ _ (by simp)]
      simp only [Nat.add_zero, List.getElem?_append_right (Nat.le_refl _), Nat.sub_self, List.getElem?_cons_zero, Option.some.injEq, UV.struct.injEq]
      apply List.map_congr_left
      rintro ⟨i, t⟩ hm
      refine zeroIn_below (n := zs.length) (fun m hm => ?_) t ?_
      · rw [zerosOf_prefix _ _ _ (by simp; omega), List.getElem?_append_left hm]
      · have := hb 0 fs0 rfl i t hm
        simpa using this
    | succ n =>
      simp only [List.getElem?_cons_succ] at h
      have := zerosOf_get r (zs ++ [.struct (fs0.map fun f => f.2.zeroIn zs)]) (by
        intro m gs hm i t hmem
        have := hb (m + 1) gs (by simpa using hm) i t hmem
        simp only [List.length_append, List.length_cons, List.length_nil]
        rwa [show zs.length + (0 + 1) + m = zs.length + (m + 1) by omega]) n fs h
      simp only [List.length_append, List.length_cons, List.length_nil] at this
      rwa [show zs.length + (0 + 1) + n = zs.length + (n + 1) by omega] at this

theorem zero_struct {P : UEnv} (hw : P.defs.Wf) {n : Nat} {fs : List (FInfo × Ty)} (h : P.defs[n]? = some fs) :
    P.zero (.struct n) = .struct (fs.map fun f => P.zero f.2) := by
  have := zerosOf_get P.defs [] (by intro n fs h i t hm; simpa using hw n fs h i t hm) n fs h
  simp only [List.length_nil, Nat.zero_add] at this
  simp only [UEnv.zero, Ty.zeroIn, List.getD_eq_getElem?_getD, this, Option.getD_some]

theorem zero_array (P : UEnv) (n : Nat) (t : Ty) : P.zero (.array n t) = .arr (List.replicate n (P.zero t)) := rfl

theorem canon64_zero : Canon f64 0 0 := by unfold Canon f64; simp
theorem canon32_zero : Canon f32 0 0 := by unfold Canon f32; simp

theorem isF32_zero : (GoFloat.fin false 0 0).IsF32 :=
  ⟨canon64_zero, 0, 0, canon32_zero, by simp⟩

theorem hasTys_iff {D : Defs} {t : Ty} : ∀ (xs : List UV), UV.HasTys D xs t ↔ ∀ x ∈ xs, x.HasTy D t
  | [] => by simp [UV.HasTys]
  | x :: xs => by simp [UV.HasTys, hasTys_iff xs]

theorem hasTym_iff {D : Defs} {t : Ty} : ∀ (xs : List (Bytes × UV)), UV.HasTym D xs t ↔ ∀ e ∈ xs, e.2.HasTy D t
  | [] => by simp [UV.HasTym]
  | (k, x) :: xs => by simp [UV.HasTym, hasTym_iff xs]

theorem hasTyf_iff {D : Defs} : ∀ (xs : List UV) (fs : List (FInfo × Ty)), UV.HasTyf D xs fs ↔
    xs.length = fs.length ∧ ∀ (n : Nat) x i t, xs[n]? = some x → fs[n]? = some (i, t) → x.HasTy D t
  | [], fs => by
    simp only [UV.HasTyf]
    constructor
    · rintro rfl; simp
    · rintro ⟨h, _⟩; exact (List.length_eq_zero_iff.1 h.symm)
  | x :: xs, fs => by
    simp only [UV.HasTyf]
    constructor
    · rintro ⟨i, t, r, rfl, h1, h2⟩
      rw [hasTyf_iff xs r] at h2
      refine ⟨by simp [h2.1], ?_⟩
      intro n y j s hy hf
      cases n with
      | zero => simp at hy hf; obtain ⟨rfl, rfl⟩ := hf; subst hy; exact h1
      | succ n => exact h2.2 n y j s (by simpa using hy) (by simpa using hf)
    · rintro ⟨h1, h2⟩
      cases fs with
      | nil => simp at h1
      | cons f r =>
        obtain ⟨i, t⟩ := f
        refine ⟨i, t, r, rfl, h2 0 x i t rfl rfl, (hasTyf_iff xs r).2 ⟨by simpa using h1, ?_⟩⟩
        intro n y j s hy hf
        exact h2 (n + 1) y j s (by simpa using hy) (by simpa using hf)

/-! ### Allocation -/

theorem alloc_ptr_zero (P : UEnv) (t : Ty) : P.alloc (.ptr t) (P.zero (.ptr t)) = .ptr (P.alloc t (P.zero t)) := rfl

end Jsonutils
