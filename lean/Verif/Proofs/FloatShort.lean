import Verif.Proofs.FloatNear
import Verif.Proofs.RfcPrint

/-! `shortest` finds the shortest decimal. -/

namespace Jsonutils

/-- The numbers rounding to a number of the format form an interval around it. -/
theorem between_below {f : FFmt} {a b a' b' m e : Nat} (hb : 0 < b) (hb' : 0 < b') (h : NearestEven f a b m e)
    (h1 : a * b' ≤ a' * b) (h2 : a' * 2 ^ f.bias ≤ m * 2 ^ e * b') : NearestEven f a' b' m e := by
  have h1' : a * 2 ^ f.bias * b' ≤ a' * 2 ^ f.bias * b := by
    rw [Nat.mul_right_comm, Nat.mul_right_comm a']; exact Nat.mul_le_mul_right _ h1
  have key : ∀ m' e', Canon f m' e' → m' * 2 ^ e' < m * 2 ^ e → (m' * 2 ^ e' * b' + m * 2 ^ e * b' ≤ 2 * (a' * 2 ^ f.bias)) ∧
      (m' * 2 ^ e' * b' + m * 2 ^ e * b' = 2 * (a' * 2 ^ f.bias) → gap f a b m' e' = gap f a b m e) := by
    intro m' e' hc hlt
    have hn := h.nearest m' e' hc
    unfold gap at *
    generalize a * 2 ^ f.bias = N at *
    generalize a' * 2 ^ f.bias = N' at *
    generalize m' * 2 ^ e' = R at *
    generalize m * 2 ^ e = V at *
    have hRV : R * b < V * b := Nat.mul_lt_mul_of_pos_right hlt hb
    -- x ≤ v
    have hxv : N ≤ V * b := by
      have : N * b' ≤ V * b * b' := by
        refine Nat.le_trans h1' ?_
        rw [Nat.mul_right_comm]; exact Nat.mul_le_mul_right _ h2
      exact Nat.le_of_mul_le_mul_right this hb'
    have hs : R * b + V * b ≤ 2 * N := by
      generalize R * b = r at *; generalize V * b = v at *
      unfold absDiff at hn; omega
    have hs' : (R * b' + V * b') * b ≤ 2 * N * b' := by
      have := Nat.mul_le_mul_right b' hs
      have e : (R * b' + V * b') * b = (R * b + V * b) * b' := by rw [Nat.add_mul, Nat.add_mul]; ac_rfl
      omega
    have hs2 : 2 * N * b' ≤ 2 * N' * b := by rw [Nat.mul_assoc, Nat.mul_assoc]; omega
    refine ⟨Nat.le_of_mul_le_mul_right (Nat.le_trans hs' hs2) hb, fun heq => ?_⟩
    have e : (R * b' + V * b') * b = (R * b + V * b) * b' := by rw [Nat.add_mul, Nat.add_mul]; ac_rfl
    rw [heq] at hs' e
    have h3 : (R * b + V * b) * b' = 2 * N * b' := by omega
    have h4 := Nat.eq_of_mul_eq_mul_right hb' h3
    generalize R * b = r at *; generalize V * b = v at *
    unfold absDiff; omega
  refine ⟨h.inFormat, fun m' e' hc => ?_, fun m' e' hc ht => ?_⟩
  · by_cases hlt : m' * 2 ^ e' < m * 2 ^ e
    · have hk := (key m' e' hc hlt).1
      unfold gap
      have := Nat.mul_lt_mul_of_pos_right hlt hb'
      generalize m' * 2 ^ e' * b' = r at *; generalize m * 2 ^ e * b' = v at *
      generalize a' * 2 ^ f.bias = n at *
      unfold absDiff; omega
    · have := Nat.mul_le_mul_right b' (Nat.le_of_not_lt hlt)
      unfold gap
      generalize m' * 2 ^ e' * b' = r at *; generalize m * 2 ^ e * b' = v at *
      generalize a' * 2 ^ f.bias = n at *
      unfold absDiff; omega
  · by_cases hlt : m' * 2 ^ e' < m * 2 ^ e
    · have hk := key m' e' hc hlt
      refine h.tie m' e' hc (hk.2 ?_)
      unfold gap at ht
      have := Nat.mul_lt_mul_of_pos_right hlt hb'
      have hk1 := hk.1
      generalize m' * 2 ^ e' * b' = r at *; generalize m * 2 ^ e * b' = v at *
      generalize a' * 2 ^ f.bias = n at *
      unfold absDiff at ht; omega
    · have hge := Nat.mul_le_mul_right b' (Nat.le_of_not_lt hlt)
      have heq : m' * 2 ^ e' * b' = m * 2 ^ e * b' := by
        unfold gap at ht
        generalize m' * 2 ^ e' * b' = r at *; generalize m * 2 ^ e * b' = v at *
        generalize a' * 2 ^ f.bias = n at *
        unfold absDiff at ht; omega
      have hv := Nat.eq_of_mul_eq_mul_right hb' heq
      by_cases hp : 0 < f.prec
      · exact Or.inl (canon_inj hp h.inFormat hc hv)
      · have h0 : f.prec = 0 := by omega
        have := h.inFormat.1
        rw [h0] at this
        right; omega

theorem between_above {f : FFmt} {a b a' b' m e : Nat} (hb : 0 < b) (hb' : 0 < b') (h : NearestEven f a b m e)
    (h1 : a' * b ≤ a * b') (h2 : m * 2 ^ e * b' ≤ a' * 2 ^ f.bias) : NearestEven f a' b' m e := by
  have h1' : a' * 2 ^ f.bias * b ≤ a * 2 ^ f.bias * b' := by
    rw [Nat.mul_right_comm, Nat.mul_right_comm a]; exact Nat.mul_le_mul_right _ h1
  have key : ∀ m' e', Canon f m' e' → m * 2 ^ e < m' * 2 ^ e' → (2 * (a' * 2 ^ f.bias) ≤ m' * 2 ^ e' * b' + m * 2 ^ e * b') ∧
      (m' * 2 ^ e' * b' + m * 2 ^ e * b' = 2 * (a' * 2 ^ f.bias) → gap f a b m' e' = gap f a b m e) := by
    intro m' e' hc hlt
    have hn := h.nearest m' e' hc
    unfold gap at *
    generalize a * 2 ^ f.bias = N at *
    generalize a' * 2 ^ f.bias = N' at *
    generalize m' * 2 ^ e' = R at *
    generalize m * 2 ^ e = V at *
    have hRV : V * b < R * b := Nat.mul_lt_mul_of_pos_right hlt hb
    have hxv : V * b ≤ N := by
      have : V * b * b' ≤ N * b' := by
        refine Nat.le_trans ?_ h1'
        rw [Nat.mul_right_comm]; exact Nat.mul_le_mul_right _ h2
      exact Nat.le_of_mul_le_mul_right this hb'
    have hs : 2 * N ≤ R * b + V * b := by
      generalize R * b = r at *; generalize V * b = v at *
      unfold absDiff at hn; omega
    have hs' : 2 * N * b' ≤ (R * b' + V * b') * b := by
      have := Nat.mul_le_mul_right b' hs
      have e : (R * b' + V * b') * b = (R * b + V * b) * b' := by rw [Nat.add_mul, Nat.add_mul]; ac_rfl
      omega
    have hs2 : 2 * N' * b ≤ 2 * N * b' := by rw [Nat.mul_assoc, Nat.mul_assoc]; omega
    refine ⟨Nat.le_of_mul_le_mul_right (Nat.le_trans hs2 hs') hb, fun heq => ?_⟩
    have e : (R * b' + V * b') * b = (R * b + V * b) * b' := by rw [Nat.add_mul, Nat.add_mul]; ac_rfl
    rw [heq] at hs' e
    have h3 : (R * b + V * b) * b' = 2 * N * b' := by omega
    have h4 := Nat.eq_of_mul_eq_mul_right hb' h3
    generalize R * b = r at *; generalize V * b = v at *
    unfold absDiff; omega
  refine ⟨h.inFormat, fun m' e' hc => ?_, fun m' e' hc ht => ?_⟩
  · by_cases hlt : m * 2 ^ e < m' * 2 ^ e'
    · have hk := (key m' e' hc hlt).1
      unfold gap
      have := Nat.mul_lt_mul_of_pos_right hlt hb'
      generalize m' * 2 ^ e' * b' = r at *; generalize m * 2 ^ e * b' = v at *
      generalize a' * 2 ^ f.bias = n at *
      unfold absDiff; omega
    · have := Nat.mul_le_mul_right b' (Nat.le_of_not_lt hlt)
      unfold gap
      generalize m' * 2 ^ e' * b' = r at *; generalize m * 2 ^ e * b' = v at *
      generalize a' * 2 ^ f.bias = n at *
      unfold absDiff; omega
  · by_cases hlt : m * 2 ^ e < m' * 2 ^ e'
    · have hk := key m' e' hc hlt
      refine h.tie m' e' hc (hk.2 ?_)
      unfold gap at ht
      have := Nat.mul_lt_mul_of_pos_right hlt hb'
      have hk1 := hk.1
      generalize m' * 2 ^ e' * b' = r at *; generalize m * 2 ^ e * b' = v at *
      generalize a' * 2 ^ f.bias = n at *
      unfold absDiff at ht; omega
    · have hge := Nat.mul_le_mul_right b' (Nat.le_of_not_lt hlt)
      have heq : m' * 2 ^ e' * b' = m * 2 ^ e * b' := by
        unfold gap at ht
        generalize m' * 2 ^ e' * b' = r at *; generalize m * 2 ^ e * b' = v at *
        generalize a' * 2 ^ f.bias = n at *
        unfold absDiff at ht; omega
      have hv := Nat.eq_of_mul_eq_mul_right hb' heq
      by_cases hp : 0 < f.prec
      · exact Or.inl (canon_inj hp h.inFormat hc hv)
      · have h0 : f.prec = 0 := by omega
        have := h.inFormat.1
        rw [h0] at this
        right; omega

theorem tooBig_mono {f : FFmt} {a b a' b' : Nat} (hb' : 0 < b') (h1 : a' * b ≤ a * b') (h : TooBig f a' b') : TooBig f a b := by
  unfold TooBig at *
  have h2 := Nat.mul_le_mul_right b h
  have e1 : (2 * 2 ^ f.prec - 1) * 2 ^ f.maxE * b' * b = (2 * 2 ^ f.prec - 1) * 2 ^ f.maxE * b * b' := Nat.mul_right_comm ..
  have e2 : 2 * (a' * 2 ^ f.bias) * b = 2 * 2 ^ f.bias * (a' * b) := by ac_rfl
  have e3 : 2 * (a * 2 ^ f.bias) * b' = 2 * 2 ^ f.bias * (a * b') := by ac_rfl
  have h3 := Nat.mul_le_mul_left (2 * 2 ^ f.bias) h1
  rw [e1, e2] at h2
  exact Nat.le_of_mul_le_mul_right (Nat.le_trans h2 (by rw [e3]; exact h3)) hb'

theorem canon_not_tooBig {f : FFmt} {a b m e : Nat} (hb : 0 < b) (hc : Canon f m e) (h : a * 2 ^ f.bias ≤ m * 2 ^ e * b) : ¬ TooBig f a b := by
  unfold TooBig
  have h1 : m * 2 ^ e ≤ (2 ^ f.prec - 1) * 2 ^ f.maxE :=
    Nat.mul_le_mul (by have := hc.1; omega) (Nat.pow_le_pow_right (by decide) hc.2.1)
  have h2 := Nat.mul_le_mul_right b h1
  have hM : 0 < 2 ^ f.maxE * b := Nat.mul_pos (Nat.pow_pos (by decide)) hb
  rw [Nat.mul_assoc (2 ^ f.prec - 1)] at h2
  rw [Nat.mul_assoc (2 * 2 ^ f.prec - 1)]
  have h3 : (2 * 2 ^ f.prec - 1) * (2 ^ f.maxE * b) = 2 * ((2 ^ f.prec - 1) * (2 ^ f.maxE * b)) + 2 ^ f.maxE * b := by
    have hp : 0 < 2 ^ f.prec := Nat.pow_pos (by decide)
    have : 2 * 2 ^ f.prec - 1 = 2 * (2 ^ f.prec - 1) + 1 := by omega
    rw [this, Nat.add_mul, Nat.one_mul, Nat.mul_assoc]
  omega

theorem ten_pos (n : Nat) : 0 < 10 ^ n := Nat.pow_pos (by decide)

/-- Between two decimals with the same last place: if one reads as the number, so does every one between it and the number. -/
theorem reads_below {f : FFmt} {c c' : Nat} {k : Int} {m e : Nat} (h : ReadsAs f c' k m e) (h1 : c' ≤ c)
    (h2 : c * 10 ^ k.toNat * 2 ^ f.bias ≤ m * 2 ^ e * 10 ^ (-k).toNat) : ReadsAs f c k m e :=
  ⟨between_below (ten_pos _) (ten_pos _) h.1 (Nat.mul_le_mul_right _ (Nat.mul_le_mul_right _ h1)) h2,
    canon_not_tooBig (ten_pos _) h.1.inFormat h2⟩

theorem reads_above {f : FFmt} {c c' : Nat} {k : Int} {m e : Nat} (h : ReadsAs f c' k m e) (h1 : c ≤ c')
    (h2 : m * 2 ^ e * 10 ^ (-k).toNat ≤ c * 10 ^ k.toNat * 2 ^ f.bias) : ReadsAs f c k m e :=
  ⟨between_above (ten_pos _) (ten_pos _) h.1 (Nat.mul_le_mul_right _ (Nat.mul_le_mul_right _ h1)) h2,
    fun hb => h.2 (tooBig_mono (ten_pos _) (Nat.mul_le_mul_right _ (Nat.mul_le_mul_right _ h1)) hb)⟩

theorem roundsTo_iff {f : FFmt} (hp : 2 ≤ f.prec) (c : Nat) (k : Int) (m e : Nat) : roundsTo f c k m e = true ↔ ReadsAs f c k m e := by
  unfold ReadsAs
  rw [← roundPos_iff hp (ten_pos _)]
  unfold roundsTo
  split
  · rename_i h
    have : (-k).toNat = 0 := by omega
    rw [this, beq_iff_eq, Nat.pow_zero]
  · rename_i h
    have : k.toNat = 0 := by omega
    rw [this, beq_iff_eq, Nat.pow_zero, Nat.mul_one]

theorem reads_pos {f : FFmt} {c : Nat} {k : Int} {m e : Nat} (h : ReadsAs f c k m e) (hm : 0 < m) : 0 < c := by
  rcases Nat.eq_zero_or_pos c with rfl | h0
  · exfalso
    have hc : Canon f 0 0 := ⟨Nat.pow_pos (by decide), Nat.zero_le _, Or.inl rfl⟩
    have := h.1.nearest 0 0 hc
    unfold gap absDiff at this
    simp only [Nat.zero_mul, Nat.sub_self, Nat.add_zero, Nat.zero_sub, Nat.zero_add] at this
    have h1 : 0 < m * 2 ^ e * 10 ^ (-k).toNat := Nat.mul_pos (Nat.mul_pos hm (Nat.pow_pos (by decide))) (ten_pos _)
    omega
  · exact h0

/-- No decimal above ten times the number reads as it. -/
theorem reads_bound {f : FFmt} (hp : 2 ≤ f.prec) {c : Nat} {k : Int} {m e : Nat} (h : ReadsAs f c k m e) (hm : 0 < m) :
    c * 10 ^ k.toNat * 2 ^ f.bias ≤ 4 * (m * 2 ^ e * 10 ^ (-k).toNat) := by
  refine Nat.le_of_not_lt fun hlt => ?_
  have hpp := two_pow_pred (p := f.prec) (by omega)
  have h10 : 0 < 10 ^ (-k).toNat := ten_pos _
  have hcan := h.1.inFormat
  -- twice the number, if in the format, is nearer
  have near : ∀ m' e', Canon f m' e' → m' * 2 ^ e' = 2 * (m * 2 ^ e) → False := by
    intro m' e' hc hv
    have hn := h.1.nearest m' e' hc
    unfold gap at hn
    rw [hv, Nat.mul_assoc 2] at hn
    have hpos : 0 < m * 2 ^ e * 10 ^ (-k).toNat := Nat.mul_pos (Nat.mul_pos hm (Nat.pow_pos (by decide))) h10
    generalize m * 2 ^ e * 10 ^ (-k).toNat = v at *
    generalize c * 10 ^ k.toNat * 2 ^ f.bias = n at *
    unfold absDiff at hn
    omega
  by_cases h1 : 2 ^ (f.prec - 1) ≤ m
  · by_cases h2 : e + 1 ≤ f.maxE
    · exact near m (e + 1) ⟨hcan.1, h2, Or.inr h1⟩ (by rw [Nat.pow_succ]; ac_rfl)
    · have he : e = f.maxE := by have := hcan.2.1; omega
      apply h.2
      unfold TooBig
      have h3 : 2 ^ (f.prec - 1) * (2 ^ e * 10 ^ (-k).toNat) ≤ m * (2 ^ e * 10 ^ (-k).toNat) := Nat.mul_le_mul_right _ h1
      have h4 : (2 * 2 ^ f.prec - 1) * (2 ^ e * 10 ^ (-k).toNat) ≤ 4 * 2 ^ (f.prec - 1) * (2 ^ e * 10 ^ (-k).toNat) := Nat.mul_le_mul_right _ (by omega)
      rw [Nat.mul_assoc 4] at h4
      rw [Nat.mul_assoc m] at hlt
      rw [← he, Nat.mul_assoc (2 * 2 ^ f.prec - 1)]
      omega
  · have he : e = 0 := by
      rcases hcan.2.2 with h | h
      · exact h
      · exact absurd h h1
    subst he
    exact near (2 * m) 0 ⟨by omega, Nat.zero_le _, Or.inl rfl⟩ (by rw [Nat.mul_assoc])

theorem natDec_lt_pow (n : Nat) : n < 10 ^ (natDec n).length := by
  induction n using Nat.strongRecOn with
  | _ n ih =>
    by_cases h : n < 10
    · rw [natDec_lt h]; simpa using h
    · have := ih (n / 10) (by omega)
      rw [natDec_ge (by omega), List.length_append, List.length_singleton, Nat.pow_succ]
      generalize 10 ^ (natDec (n / 10)).length = t at *
      omega

/-- The exact decimal expansion. -/
theorem reads_exact {f : FFmt} (hp : 2 ≤ f.prec) {m e : Nat} (hc : Canon f m e) (hm : 0 < m) :
    ReadsAs f (m * 2 ^ e * 5 ^ f.bias) (-(f.bias : Int)) m e := by
  unfold ReadsAs
  rw [← roundPos_iff hp (ten_pos _)]
  refine roundPos_exact f m e _ _ (by omega) hc hm (ten_pos _) ?_
  have h1 : (-(f.bias : Int)).toNat = 0 := by omega
  have h2 : (- -(f.bias : Int)).toNat = f.bias := by omega
  rw [h1, h2, Nat.pow_zero, Nat.mul_one, Nat.mul_assoc, ← Nat.mul_pow]

theorem shortestAux_shortest {f : FFmt} (hp : 2 ≤ f.prec) {m e : Nat} (hc : Canon f m e) (hm : 0 < m) (fuel : Nat) (k : Int)
    (hk : k = (fuel : Int) - f.bias - 1) (hmax : ∀ c' k', ReadsAs f c' k' m e → k' ≤ k) :
    ShortestDec f m e (shortestAux f m e fuel k).1 (shortestAux f m e fuel k).2 := by
  induction fuel generalizing k with
  | zero =>
    have := hmax _ _ (reads_exact hp hc hm)
    omega
  | succ fuel ih =>
    unfold shortestAux
    simp only
    have ea : (if 0 ≤ k then m * 2 ^ e else m * 2 ^ e * 10 ^ (-k).toNat) = m * 2 ^ e * 10 ^ (-k).toNat := by
      split
      · rename_i h
        have : (-k).toNat = 0 := by omega
        rw [this, Nat.pow_zero, Nat.mul_one]
      · rfl
    have eb : (if 0 ≤ k then 2 ^ f.bias * 10 ^ k.toNat else 2 ^ f.bias) = 2 ^ f.bias * 10 ^ k.toNat := by
      split
      · rfl
      · rename_i h
        have : k.toNat = 0 := by omega
        rw [this, Nat.pow_zero, Nat.mul_one]
    rw [ea, eb]
    have hb : 0 < 2 ^ f.bias * 10 ^ k.toNat := Nat.mul_pos (Nat.pow_pos (by decide)) (ten_pos _)
    have hg : ∀ c, gap f (c * 10 ^ k.toNat) (10 ^ (-k).toNat) m e = absDiff (c * (2 ^ f.bias * 10 ^ k.toNat)) (m * 2 ^ e * 10 ^ (-k).toNat) := by
      intro c
      have : c * 10 ^ k.toNat * 2 ^ f.bias = c * (2 ^ f.bias * 10 ^ k.toNat) := by ac_rfl
      unfold gap; rw [this]
    have hlow : ∀ c c', ReadsAs f c' k m e → c' ≤ c → c * (2 ^ f.bias * 10 ^ k.toNat) ≤ m * 2 ^ e * 10 ^ (-k).toNat → ReadsAs f c k m e := by
      intro c c' h h1 h2
      refine reads_below h h1 ?_
      have : c * 10 ^ k.toNat * 2 ^ f.bias = c * (2 ^ f.bias * 10 ^ k.toNat) := by ac_rfl
      omega
    have hhigh : ∀ c c', ReadsAs f c' k m e → c ≤ c' → m * 2 ^ e * 10 ^ (-k).toNat ≤ c * (2 ^ f.bias * 10 ^ k.toNat) → ReadsAs f c k m e := by
      intro c c' h h1 h2
      refine reads_above h h1 ?_
      have : c * 10 ^ k.toNat * 2 ^ f.bias = c * (2 ^ f.bias * 10 ^ k.toNat) := by ac_rfl
      omega
    generalize 2 ^ f.bias * 10 ^ k.toNat = b at *
    generalize m * 2 ^ e * 10 ^ (-k).toNat = a at *
    have hdm := Nat.div_add_mod a b
    have hml := Nat.mod_lt a hb
    have e1 : b * (a / b) = a / b * b := Nat.mul_comm _ _
    have e2 : (a / b + 1) * b = a / b * b + b := by rw [Nat.add_mul, Nat.one_mul]
    generalize hcq : a / b = c at *
    generalize a % b = r at *
    rw [e1] at hdm
    have hle : c * b ≤ a := by omega
    have hge : a ≤ (c + 1) * b := by omega
    -- the two neighbours are nearest
    have hn1 : ∀ c', c' ≤ c → absDiff (c * b) a ≤ absDiff (c' * b) a ∧ (absDiff (c' * b) a = absDiff (c * b) a → c' = c) := by
      intro c' h
      have h1 := Nat.mul_le_mul_right b h
      refine ⟨by unfold absDiff; omega, fun h2 => ?_⟩
      have : c' * b = c * b := by unfold absDiff at h2; omega
      exact Nat.eq_of_mul_eq_mul_right hb this
    have hn2 : ∀ c', c + 1 ≤ c' → absDiff ((c + 1) * b) a ≤ absDiff (c' * b) a ∧ (absDiff (c' * b) a = absDiff ((c + 1) * b) a → c' = c + 1) := by
      intro c' h
      have h1 := Nat.mul_le_mul_right b h
      refine ⟨by unfold absDiff; omega, fun h2 => ?_⟩
      have : c' * b = (c + 1) * b := by unfold absDiff at h2; omega
      exact Nat.eq_of_mul_eq_mul_right hb this
    have hlo := roundsTo_iff hp c k m e
    have hhi := roundsTo_iff hp (c + 1) k m e
    by_cases l : roundsTo f c k m e = true
    · by_cases h : roundsTo f (c + 1) k m e = true
      · rw [if_pos (by rw [l, h]; rfl)]
        by_cases hr : 2 * r < b ∨ (2 * r = b ∧ c % 2 = 0)
        · rw [if_pos (by simpa using hr)]
          refine ⟨hlo.1 l, hmax, fun c' hc' => ?_, fun c' hc' => ?_⟩
          · rw [hg, hg]
            rcases Nat.lt_or_ge c c' with h | h
            · have := (hn2 c' h).1
              have : absDiff (c * b) a ≤ absDiff ((c + 1) * b) a := by unfold absDiff; omega
              show absDiff (c * b) a ≤ _
              omega
            · exact (hn1 c' h).1
          · rw [hg, hg]
            intro ht
            rcases Nat.lt_or_ge c c' with h | h
            · have := (hn2 c' h).1
              have : c % 2 = 0 := by
                rcases hr with hr | hr
                · have : absDiff (c * b) a < absDiff ((c + 1) * b) a := by unfold absDiff; omega
                  have h2 : absDiff (c' * b) a = absDiff (c * b) a := ht
                  omega
                · exact hr.2
              exact Or.inr this
            · exact Or.inl ((hn1 c' h).2 ht)
        · rw [if_neg (by simpa using hr)]
          refine ⟨hhi.1 h, hmax, fun c' hc' => ?_, fun c' hc' => ?_⟩
          · rw [hg, hg]
            rcases Nat.lt_or_ge c c' with h | h
            · exact (hn2 c' h).1
            · have := (hn1 c' h).1
              have : absDiff ((c + 1) * b) a ≤ absDiff (c * b) a := by unfold absDiff; omega
              show absDiff ((c + 1) * b) a ≤ _
              omega
          · rw [hg, hg]
            intro ht
            rcases Nat.lt_or_ge c c' with h | h
            · exact Or.inl ((hn2 c' h).2 ht)
            · have := (hn1 c' h).1
              right
              show (c + 1) % 2 = 0
              have h2 : absDiff (c' * b) a = absDiff ((c + 1) * b) a := ht
              by_cases h3 : 2 * r = b
              · omega
              · have : absDiff ((c + 1) * b) a < absDiff (c * b) a := by unfold absDiff; omega
                omega
      · rw [if_neg (by rw [l]; simpa using h), if_pos l]
        have hno : ∀ c', ReadsAs f c' k m e → c' ≤ c := by
          intro c' hc'
          refine Nat.le_of_not_lt fun hlt => h (hhi.2 (hhigh (c + 1) c' hc' hlt hge))
        exact ⟨hlo.1 l, hmax, fun c' hc' => by rw [hg, hg]; exact (hn1 c' (hno c' hc')).1,
          fun c' hc' => by rw [hg, hg]; exact fun ht => Or.inl ((hn1 c' (hno c' hc')).2 ht)⟩
    · have hno : ∀ c', ReadsAs f c' k m e → c + 1 ≤ c' := by
        intro c' hc'
        refine Nat.lt_of_not_le fun hle' => l (hlo.2 (hlow c c' hc' hle' hle))
      by_cases h : roundsTo f (c + 1) k m e = true
      · rw [if_neg (by simpa using fun h' => absurd h' l), if_neg l, if_pos h]
        exact ⟨hhi.1 h, hmax, fun c' hc' => by rw [hg, hg]; exact (hn2 c' (hno c' hc')).1,
          fun c' hc' => by rw [hg, hg]; exact fun ht => Or.inl ((hn2 c' (hno c' hc')).2 ht)⟩
      · rw [if_neg (by simpa using fun h' => absurd h' l), if_neg l, if_neg h]
        refine ih (k - 1) (by omega) fun c' k' hr => ?_
        have h1 := hmax c' k' hr
        rcases Int.lt_or_eq_of_le h1 with h2 | h2
        · omega
        · subst h2
          exact absurd (hhi.2 (hhigh (c + 1) c' hr (hno c' hr) hge)) h

theorem shortest_shortest {f : FFmt} (hp : 2 ≤ f.prec) {m e : Nat} (hc : Canon f m e) (hm : 0 < m) :
    ShortestDec f m e (shortest f m e).1 (shortest f m e).2 := by
  unfold shortest
  refine shortestAux_shortest hp hc hm _ _ (by omega) fun c' k' hr => ?_
  have hb := reads_bound hp hr hm
  have hpos := reads_pos hr hm
  have hlt := natDec_lt_pow (m * 2 ^ e / 2 ^ f.bias)
  generalize (natDec (m * 2 ^ e / 2 ^ f.bias)).length = k0 at *
  refine Int.not_lt.1 fun h => ?_
  have h1 : (-k').toNat = 0 := by omega
  rw [h1, Nat.pow_zero, Nat.mul_one] at hb
  have h2 : 10 ^ (k0 + 1) ≤ 10 ^ k'.toNat := Nat.pow_le_pow_right (by decide) (by omega)
  have h3 : 1 * 10 ^ (k0 + 1) * 2 ^ f.bias ≤ c' * 10 ^ k'.toNat * 2 ^ f.bias := Nat.mul_le_mul_right _ (Nat.mul_le_mul hpos h2)
  have h4 : m * 2 ^ e < 10 ^ k0 * 2 ^ f.bias := (Nat.div_lt_iff_lt_mul (Nat.pow_pos (by decide))).1 hlt
  have h5 : 1 * 10 ^ (k0 + 1) * 2 ^ f.bias = 10 * (10 ^ k0 * 2 ^ f.bias) := by rw [Nat.one_mul, Nat.pow_succ]; ac_rfl
  omega

end Jsonutils
