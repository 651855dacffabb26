import Verif.Proofs.FloatShort
import Verif.Proofs.Float

/-! The text of a `float32`, read as a double and written again. -/

namespace Jsonutils

/-- Rounding moves a number by at most half a unit of the last place. -/
theorem roundPos_close {f : FFmt} (hp : 2 ≤ f.prec) {num den m e : Nat} (hd : 0 < den) (h : roundPos f num den = some (m, e)) :
    2 * gap f num den m e ≤ 2 ^ e * den := by
  unfold roundPos at h
  simp only at h
  unfold gap
  generalize num * 2 ^ f.bias = N at *
  generalize hE : (Nat.log2 (N / den) + 1) - f.prec = E at h
  have hB : 0 < den * 2 ^ E := Nat.mul_pos hd (Nat.pow_pos (by decide))
  have hf := roundDiv_facts N (den * 2 ^ E) hB
  have hpp := two_pow_pred (p := f.prec) (by omega)
  have key : 2 * absDiff N (roundDiv N (den * 2 ^ E) * (den * 2 ^ E)) ≤ den * 2 ^ E := by
    have h1 := Nat.div_add_mod N (den * 2 ^ E)
    have h2 := Nat.mod_lt N hB
    unfold roundDiv
    generalize den * 2 ^ E = B at *
    simp only
    rw [Nat.mul_comm B] at h1
    split
    · rw [Nat.add_mul, Nat.one_mul]; unfold absDiff; omega
    · unfold absDiff; omega
  by_cases hM : roundDiv N (den * 2 ^ E) = 2 ^ f.prec
  · simp only [hM, if_true] at h
    split at h
    · cases h
    · simp only [Option.some.injEq, Prod.mk.injEq] at h
      obtain ⟨rfl, rfl⟩ := h
      have hv : 2 ^ (f.prec - 1) * 2 ^ (E + 1) * den = roundDiv N (den * 2 ^ E) * (den * 2 ^ E) := by
        rw [hM, hpp, Nat.pow_succ]; ac_rfl
      rw [hv]
      have : 2 ^ (E + 1) * den = 2 * (den * 2 ^ E) := by rw [Nat.pow_succ]; ac_rfl
      omega
  · simp only [hM, if_false] at h
    split at h
    · cases h
    · simp only [Option.some.injEq, Prod.mk.injEq] at h
      obtain ⟨rfl, rfl⟩ := h
      have hv : roundDiv N (den * 2 ^ E) * 2 ^ E * den = roundDiv N (den * 2 ^ E) * (den * 2 ^ E) := by ac_rfl
      rw [hv, Nat.mul_comm (2 ^ E)]
      exact key

theorem gap_scale (f : FFmt) (num den m e z : Nat) : gap f (num * z) (den * z) m e = gap f num den m e * z := by
  unfold gap absDiff
  have h1 : num * z * 2 ^ f.bias = num * 2 ^ f.bias * z := by ac_rfl
  have h2 : m * 2 ^ e * (den * z) = m * 2 ^ e * den * z := by ac_rfl
  rw [h1, h2, Nat.add_mul, Nat.sub_mul, Nat.sub_mul]

theorem nearest_scale {f : FFmt} {num den m e z : Nat} (hz : 0 < z) : NearestEven f (num * z) (den * z) m e ↔ NearestEven f num den m e := by
  constructor
  · intro ⟨a, b, c⟩
    refine ⟨a, fun m' e' h => ?_, fun m' e' h hg => c m' e' h (by rw [gap_scale, gap_scale, hg])⟩
    have := b m' e' h
    rw [gap_scale, gap_scale] at this
    exact Nat.le_of_mul_le_mul_right this hz
  · intro ⟨a, b, c⟩
    refine ⟨a, fun m' e' h => ?_, fun m' e' h hg => c m' e' h ?_⟩
    · rw [gap_scale, gap_scale]; exact Nat.mul_le_mul_right _ (b m' e' h)
    · rw [gap_scale, gap_scale] at hg
      exact Nat.eq_of_mul_eq_mul_right hz hg

theorem tooBig_scale {f : FFmt} {num den z : Nat} (hz : 0 < z) : TooBig f (num * z) (den * z) ↔ TooBig f num den := by
  unfold TooBig
  have h1 : (2 * 2 ^ f.prec - 1) * 2 ^ f.maxE * (den * z) = (2 * 2 ^ f.prec - 1) * 2 ^ f.maxE * den * z := by ac_rfl
  have h2 : 2 * (num * z * 2 ^ f.bias) = 2 * (num * 2 ^ f.bias) * z := by ac_rfl
  rw [h1, h2]
  exact Nat.mul_le_mul_right_iff hz

/-- The same number with more zeros. -/
theorem reads_shift {f : FFmt} {c : Nat} {k : Int} {m e : Nat} (d : Nat) : ReadsAs f c (k + d) m e ↔ ReadsAs f (c * 10 ^ d) k m e := by
  unfold ReadsAs
  -- both denote the same rational
  have hcross : c * 10 ^ (k + d).toNat * 10 ^ (-k).toNat = c * 10 ^ d * 10 ^ k.toNat * 10 ^ (-(k + d)).toNat := by
    rw [Nat.mul_assoc, ← Nat.pow_add, Nat.mul_assoc (c * 10 ^ d), ← Nat.pow_add, Nat.mul_assoc c, ← Nat.pow_add]
    congr 2
    omega
  have hz1 : 0 < 10 ^ (-k).toNat := ten_pos _
  have hz2 : 0 < 10 ^ (-(k + d)).toNat := ten_pos _
  have hden : 10 ^ (-(k + d)).toNat * 10 ^ (-k).toNat = 10 ^ (-k).toNat * 10 ^ (-(k + d)).toNat := Nat.mul_comm _ _
  rw [← nearest_scale hz1, ← tooBig_scale hz1, hcross, hden, nearest_scale hz2, tooBig_scale hz2]

/-- Everything up to a quarter unit above a number reads as that number. -/
theorem reads_above_quarter {f : FFmt} (hp : 2 ≤ f.prec) {c : Nat} {k : Int} {m e : Nat} (hc : Canon f m e)
    (h1 : m * 2 ^ e * 10 ^ (-k).toNat ≤ c * 10 ^ k.toNat * 2 ^ f.bias)
    (h2 : 4 * (c * 10 ^ k.toNat * 2 ^ f.bias) ≤ (4 * m + 1) * 2 ^ e * 10 ^ (-k).toNat) : ReadsAs f c k m e := by
  have h10 : 0 < 10 ^ (-k).toNat := ten_pos _
  have hU : 0 < 2 ^ e * 10 ^ (-k).toNat := Nat.mul_pos (Nat.pow_pos (by decide)) h10
  have e1 : (4 * m + 1) * 2 ^ e * 10 ^ (-k).toNat = 4 * (m * 2 ^ e * 10 ^ (-k).toNat) + 2 ^ e * 10 ^ (-k).toNat := by
    rw [Nat.mul_assoc, Nat.add_mul, Nat.one_mul, Nat.mul_assoc 4, Nat.mul_assoc m]
  rw [e1] at h2
  have main : ∀ m' e', Canon f m' e' → (m' = m ∧ e' = e) ∨
      gap f (c * 10 ^ k.toNat) (10 ^ (-k).toNat) m e < gap f (c * 10 ^ k.toNat) (10 ^ (-k).toNat) m' e' ∨ (m' * 2 ^ e' < m * 2 ^ e ∧
      gap f (c * 10 ^ k.toNat) (10 ^ (-k).toNat) m e < gap f (c * 10 ^ k.toNat) (10 ^ (-k).toNat) m' e') := by
    intro m' e' hc'
    unfold gap
    rcases Nat.lt_trichotomy (m * 2 ^ e) (m' * 2 ^ e') with hlt | heq | hgt
    · right; left
      have h3 := canon_succ_le (by omega) hc hc' hlt
      have h4 := Nat.mul_le_mul_right (10 ^ (-k).toNat) h3
      have e2 : (m + 1) * 2 ^ e * 10 ^ (-k).toNat = m * 2 ^ e * 10 ^ (-k).toNat + 2 ^ e * 10 ^ (-k).toNat := by
        rw [Nat.mul_assoc, Nat.add_mul, Nat.one_mul, Nat.mul_assoc m]
      rw [e2] at h4
      unfold absDiff
      omega
    · left
      exact canon_inj (by omega) hc hc' heq.symm
    · right; right
      refine ⟨hgt, ?_⟩
      have h4 : m' * 2 ^ e' * 10 ^ (-k).toNat < m * 2 ^ e * 10 ^ (-k).toNat := Nat.mul_lt_mul_of_pos_right hgt h10
      unfold absDiff
      omega
  refine ⟨⟨hc, fun m' e' h => ?_, fun m' e' h hg => ?_⟩, ?_⟩
  · rcases main m' e' h with ⟨rfl, rfl⟩ | h | ⟨_, h⟩ <;> omega
  · rcases main m' e' h with h | h | ⟨_, h⟩
    · exact .inl h
    · omega
    · omega
  · unfold TooBig
    intro hb
    have h3 : m + 1 ≤ 2 ^ f.prec := hc.1
    have h4 : 2 ^ e ≤ 2 ^ f.maxE := Nat.pow_le_pow_right (by decide) hc.2.1
    have h5 : (4 * m + 1) * 2 ^ e * 10 ^ (-k).toNat ≤ (4 * m + 1) * 2 ^ f.maxE * 10 ^ (-k).toNat :=
      Nat.mul_le_mul_right _ (Nat.mul_le_mul_left _ h4)
    have h6 : (4 * m + 1) * (2 ^ f.maxE * 10 ^ (-k).toNat) < (2 * (2 * 2 ^ f.prec - 1)) * (2 ^ f.maxE * 10 ^ (-k).toNat) :=
      Nat.mul_lt_mul_of_pos_right (by omega) (Nat.mul_pos (Nat.pow_pos (by decide)) h10)
    rw [e1, Nat.mul_assoc (4 * m + 1)] at h5
    rw [Nat.mul_assoc] at hb
    rw [Nat.mul_assoc 2] at h6
    omega

/-- The last digit of the shortest decimal of a `float32` is worth at least a fortieth of the unit of its last place. -/
theorem last_digit32 {f : FFmt} (hp : 2 ≤ f.prec) {m e c : Nat} {k : Int} (hs : ShortestDec f m e c k) :
    2 ^ e * 10 ^ (-k).toNat ≤ 40 * (10 ^ k.toNat * 2 ^ f.bias) := by
  refine Nat.le_of_not_lt fun hlt => ?_
  have hA : 0 < 10 ^ k.toNat * 2 ^ f.bias := Nat.mul_pos (ten_pos _) (Nat.pow_pos (by decide))
  -- the next multiple of ten units
  let q := m * 2 ^ e * 10 ^ (-k).toNat / (10 * (10 ^ k.toNat * 2 ^ f.bias)) + 1
  have hr : ReadsAs f (q * 10 ^ 1) k m e := by
    have hdm := Nat.div_add_mod (m * 2 ^ e * 10 ^ (-k).toNat) (10 * (10 ^ k.toNat * 2 ^ f.bias))
    have hml := Nat.mod_lt (m * 2 ^ e * 10 ^ (-k).toNat) (y := 10 * (10 ^ k.toNat * 2 ^ f.bias)) (by omega)
    have e2 : q * 10 ^ 1 * 10 ^ k.toNat * 2 ^ f.bias = q * (10 * (10 ^ k.toNat * 2 ^ f.bias)) := by rw [Nat.pow_one]; ac_rfl
    have e3 : q * (10 * (10 ^ k.toNat * 2 ^ f.bias)) = 10 * (10 ^ k.toNat * 2 ^ f.bias) * (m * 2 ^ e * 10 ^ (-k).toNat / (10 * (10 ^ k.toNat * 2 ^ f.bias))) +
        10 * (10 ^ k.toNat * 2 ^ f.bias) := by
      rw [Nat.mul_comm q, Nat.mul_add, Nat.mul_one]
    refine reads_above_quarter hp hs.reads.1.inFormat ?_ ?_
    · rw [e2, e3]; omega
    · rw [e2, e3]
      have e1 : (4 * m + 1) * 2 ^ e * 10 ^ (-k).toNat = 4 * (m * 2 ^ e * 10 ^ (-k).toNat) + 2 ^ e * 10 ^ (-k).toNat := by
        rw [Nat.mul_assoc, Nat.add_mul, Nat.one_mul, Nat.mul_assoc 4, Nat.mul_assoc m]
      omega
  have := hs.fewest _ _ ((reads_shift 1).2 hr)
  omega

theorem mul8 (a b c d : Nat) : 2 * (4 * (a * (b * c)) * d) = (8 * a * b * d) * c := by
  show 2 * (4 * (a * (b * c)) * d) = ((2 * 4) * a * b * d) * c
  ac_rfl

theorem mul4 (x a y b c : Nat) : x * (a * (y * b)) * c = x * (a * (y * (b * c))) := by ac_rfl

/-- The double nearest to the shortest decimal of a `float32` has the same shortest decimal. -/
theorem shortest32_64 {m' e' c : Nat} {k : Int} (hs : ShortestDec f32 m' e' c k) (hm' : 0 < m') :
    ∃ m e, roundPos f64 (c * 10 ^ k.toNat) (10 ^ (-k).toNat) = some (m, e) ∧ 0 < m ∧ shortest f64 m e = (c, k) := by
  have h10 : 0 < 10 ^ (-k).toNat := ten_pos _
  have hcan := hs.reads.1.inFormat
  have hcpos : 0 < c := reads_pos hs.reads hm'
  -- A32: worth of the last digit, X: the float32, U: the unit of its last place
  have hl := last_digit32 (by decide) hs
  have hb := reads_bound (by decide) hs.reads hm'
  have hX : m' * 2 ^ e' * 10 ^ (-k).toNat < 2 ^ 24 * (2 ^ e' * 10 ^ (-k).toNat) := by
    rw [Nat.mul_assoc]
    exact Nat.mul_lt_mul_of_pos_right hcan.1 (Nat.mul_pos (Nat.pow_pos (by decide)) h10)
  have hbias : (2 : Nat) ^ f64.bias = 2 ^ f32.bias * 2 ^ 925 := by rw [← Nat.pow_add]; rfl
  have hA : 0 < 10 ^ k.toNat * 2 ^ f32.bias := Nat.mul_pos (ten_pos _) (Nat.pow_pos (by decide))
  have hbig : ¬ TooBig f64 (c * 10 ^ k.toNat) (10 ^ (-k).toNat) := by
    unfold TooBig
    intro h
    have he : 2 ^ e' ≤ 2 ^ 253 := Nat.pow_le_pow_right (by decide) hcan.2.1
    have h3 : m' * 2 ^ e' * 10 ^ (-k).toNat < 2 ^ 24 * (2 ^ 253 * 10 ^ (-k).toNat) :=
      Nat.lt_of_lt_of_le hX (Nat.mul_le_mul_left _ (Nat.mul_le_mul_right _ he))
    have h4 : c * 10 ^ k.toNat * 2 ^ f64.bias = c * 10 ^ k.toNat * 2 ^ f32.bias * 2 ^ 925 := by rw [hbias, ← Nat.mul_assoc]
    have h5 : c * 10 ^ k.toNat * 2 ^ f32.bias * 2 ^ 925 ≤ 4 * (2 ^ 24 * (2 ^ 253 * 10 ^ (-k).toNat)) * 2 ^ 925 := Nat.mul_le_mul_right _ (by omega)
    have h6 : 2 * (4 * (2 ^ 24 * (2 ^ 253 * 10 ^ (-k).toNat)) * 2 ^ 925) = (8 * 2 ^ 24 * 2 ^ 253 * 2 ^ 925) * 10 ^ (-k).toNat := mul8 ..
    have h7 : (8 * 2 ^ 24 * 2 ^ 253 * 2 ^ 925) * 10 ^ (-k).toNat < (2 * 2 ^ f64.prec - 1) * 2 ^ f64.maxE * 10 ^ (-k).toNat :=
      Nat.mul_lt_mul_of_pos_right (by decide +kernel) h10
    omega
  cases hr : roundPos f64 (c * 10 ^ k.toNat) (10 ^ (-k).toNat) with
  | none => exact absurd ((roundPos_none (by decide) h10).1 hr) hbig
  | some p =>
    obtain ⟨m, e⟩ := p
    refine ⟨m, e, rfl, ?_⟩
    have hn := roundPos_some (by decide) h10 hr
    have hcan64 := hn.inFormat
    -- a digit is worth more than the unit of the double
    have hdig : 2 ^ e * 10 ^ (-k).toNat < 10 ^ k.toNat * 2 ^ f64.bias := by
      refine Nat.lt_of_not_le fun hle => ?_
      rw [hbias, ← Nat.mul_assoc] at hle
      rcases hcan64.2.2 with h0 | hnorm
      · subst h0
        have h1 : 1 * 10 ^ (-k).toNat ≤ 2 ^ e' * 10 ^ (-k).toNat := Nat.mul_le_mul_right _ (Nat.pow_pos (by decide))
        have h2 : 10 ^ k.toNat * 2 ^ f32.bias * 64 ≤ 10 ^ k.toNat * 2 ^ f32.bias * 2 ^ 925 := Nat.mul_le_mul_left _ (by decide +kernel)
        rw [Nat.pow_zero] at hle
        omega
      · -- twice the decimal bounds the double
        have h0 := hn.nearest 0 0 ⟨Nat.pow_pos (by decide), Nat.zero_le _, Or.inl rfl⟩
        have h1 : m * 2 ^ e * 10 ^ (-k).toNat ≤ 2 * (c * 10 ^ k.toNat * 2 ^ f64.bias) := by
          unfold gap absDiff at h0
          omega
        have h2 : 2 ^ 52 * (2 ^ e * 10 ^ (-k).toNat) ≤ m * 2 ^ e * 10 ^ (-k).toNat := by
          rw [Nat.mul_assoc]; exact Nat.mul_le_mul_right _ hnorm
        have h4 : c * 10 ^ k.toNat * 2 ^ f64.bias = c * 10 ^ k.toNat * 2 ^ f32.bias * 2 ^ 925 := by rw [hbias, ← Nat.mul_assoc]
        have h5 : c * 10 ^ k.toNat * 2 ^ f32.bias ≤ 4 * (2 ^ 24 * (40 * (10 ^ k.toNat * 2 ^ f32.bias))) := by omega
        have h6 := Nat.mul_le_mul_right (2 ^ 925) h5
        have h7 : 4 * (2 ^ 24 * (40 * (10 ^ k.toNat * 2 ^ f32.bias))) * 2 ^ 925 = 4 * (2 ^ 24 * (40 * (10 ^ k.toNat * 2 ^ f32.bias * 2 ^ 925))) := mul4 ..
        have hpos : 0 < 10 ^ k.toNat * 2 ^ f32.bias * 2 ^ 925 := Nat.mul_pos hA (Nat.pow_pos (by decide))
        rw [h7] at h6
        rw [h4] at h1
        generalize 10 ^ k.toNat * 2 ^ f32.bias * 2 ^ 925 = A at *
        generalize c * 10 ^ k.toNat * 2 ^ f32.bias * 2 ^ 925 = T at *
        generalize m * 2 ^ e * 10 ^ (-k).toNat = Y at *
        generalize 2 ^ e * 10 ^ (-k).toNat = U at *
        omega
    have hclose : ∀ c', ReadsAs f64 c' k m e → 2 * absDiff (c' * (10 ^ k.toNat * 2 ^ f64.bias)) (m * 2 ^ e * 10 ^ (-k).toNat) ≤ 2 ^ e * 10 ^ (-k).toNat := by
      intro c' hc'
      have := roundPos_close (by decide) h10 ((roundPos_iff (by decide) h10).2 hc')
      unfold gap at this
      rwa [Nat.mul_assoc c'] at this
    have hrc : ReadsAs f64 c k m e := ⟨hn, hbig⟩
    have uniq : ∀ c', ReadsAs f64 c' k m e → c' = c := by
      intro c' hc'
      have h1 := hclose c' hc'
      have h2 := hclose c hrc
      rcases Nat.lt_trichotomy c' c with h | h | h
      · have h3 := Nat.mul_le_mul_right (10 ^ k.toNat * 2 ^ f64.bias) h
        rw [Nat.succ_mul] at h3
        unfold absDiff at h1 h2
        omega
      · exact h
      · have h3 := Nat.mul_le_mul_right (10 ^ k.toNat * 2 ^ f64.bias) h
        rw [Nat.succ_mul] at h3
        unfold absDiff at h1 h2
        omega
    have hm : 0 < m := by
      refine Nat.pos_of_ne_zero fun h0 => ?_
      subst h0
      have h2 := hclose c hrc
      have h3 := Nat.mul_le_mul_right (10 ^ k.toNat * 2 ^ f64.bias) hcpos
      unfold absDiff at h2
      omega
    refine ⟨hm, ?_⟩
    have hsh := shortest_shortest (f := f64) (by decide) hcan64 hm
    cases hsx : shortest f64 m e with
    | mk c2 k2 =>
      rw [hsx] at hsh
      simp only at hsh
      have hk : k ≤ k2 := hsh.fewest _ _ hrc
      obtain ⟨d, rfl⟩ : ∃ d : Nat, k2 = k + d := ⟨(k2 - k).toNat, by omega⟩
      have h1 := uniq _ ((reads_shift d).1 hsh.reads)
      have h2 : ReadsAs f32 c2 (k + d) m' e' := (reads_shift d).2 (by rw [h1]; exact hs.reads)
      have h3 := hs.fewest _ _ h2
      have hd : d = 0 := by omega
      subst hd
      simp at h1 ⊢
      exact h1

end Jsonutils
