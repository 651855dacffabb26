import Verif.Proofs.FloatCanon
import Verif.Spec.Float

/-! `roundPos` rounds to nearest, ties to even. -/

namespace Jsonutils

theorem roundDiv_facts (a b : Nat) (hb : 0 < b) :
    2 * absDiff a (roundDiv a b * b) ≤ b ∧ (2 * absDiff a (roundDiv a b * b) = b → roundDiv a b % 2 = 0) := by
  unfold roundDiv absDiff
  simp only
  have h1 := Nat.div_add_mod a b
  have h2 := Nat.mod_lt a hb
  have e1 : b * (a / b) = a / b * b := Nat.mul_comm _ _
  have e2 : (a / b + 1) * b = a / b * b + b := by rw [Nat.add_mul, Nat.one_mul]
  generalize a / b = q at *
  generalize a % b = r at *
  rw [e1] at h1
  split
  · rw [e2]; generalize q * b = t at *; omega
  · generalize q * b = t at *; omega

/-- Other multiples are at least as far away; strictly, if the quotient is odd. -/
theorem roundDiv_nearest (a b k : Nat) (hb : 0 < b) :
    absDiff a (roundDiv a b * b) ≤ absDiff a (k * b) ∧ (absDiff a (k * b) = absDiff a (roundDiv a b * b) → k = roundDiv a b ∨ roundDiv a b % 2 = 0) := by
  have hf := roundDiv_facts a b hb
  generalize roundDiv a b = m at *
  rcases Nat.lt_trichotomy k m with h | h | h
  · have : k * b + b ≤ m * b := by rw [← Nat.succ_mul]; exact Nat.mul_le_mul_right _ h
    generalize k * b = x at *; generalize m * b = y at *
    unfold absDiff at *; omega
  · subst h; exact ⟨Nat.le_refl _, fun _ => Or.inl rfl⟩
  · have : m * b + b ≤ k * b := by rw [← Nat.succ_mul]; exact Nat.mul_le_mul_right _ h
    generalize k * b = x at *; generalize m * b = y at *
    unfold absDiff at *; omega

/-- The exponent chosen by `roundPos` is that of the number. -/
theorem bracket (p N D E : Nat) (hp : 0 < p) (hD : 0 < D) (hE : (Nat.log2 (N / D) + 1) - p = E) :
    N < 2 ^ p * (D * 2 ^ E) ∧ (E = 0 ∨ 2 ^ (p - 1) * (D * 2 ^ E) ≤ N) := by
  constructor
  · have : N / D < 2 ^ (p + E) := by
      by_cases hq0 : N / D = 0
      · rw [hq0]; exact Nat.pow_pos (by decide)
      · exact (Nat.log2_lt hq0).1 (by omega)
    rw [Nat.div_lt_iff_lt_mul hD, Nat.pow_add] at this
    rw [Nat.mul_comm D, ← Nat.mul_assoc]; exact this
  · by_cases hE0 : E = 0
    · exact Or.inl hE0
    · right
      have hq0 : N / D ≠ 0 := by intro h; rw [h] at hE; simp at hE; omega
      have : 2 ^ (p - 1 + E) ≤ N / D := (Nat.le_log2 hq0).1 (by omega)
      rw [Nat.le_div_iff_mul_le hD, Nat.pow_add] at this
      rw [Nat.mul_comm D, ← Nat.mul_assoc]; exact this

theorem two_pow_pred {p : Nat} (hp : 0 < p) : 2 ^ p = 2 * 2 ^ (p - 1) := by
  rw [← Nat.pow_succ']; congr 1; omega

/-- The candidate before renormalisation is nearest among all numbers `m' · 2^e'` with a mantissa of `p` bits. -/
theorem near_raw (p N D E m' e' : Nat) (hp : 0 < p) (hD : 0 < D)
    (hlt : N < 2 ^ p * (D * 2 ^ E)) (hge : E = 0 ∨ 2 ^ (p - 1) * (D * 2 ^ E) ≤ N)
    (h1 : m' < 2 ^ p) (h3 : e' = 0 ∨ 2 ^ (p - 1) ≤ m') :
    absDiff N (roundDiv N (D * 2 ^ E) * (D * 2 ^ E)) ≤ absDiff N (m' * 2 ^ e' * D) ∧
    (absDiff N (m' * 2 ^ e' * D) = absDiff N (roundDiv N (D * 2 ^ E) * (D * 2 ^ E)) →
      (m' = roundDiv N (D * 2 ^ E) ∧ e' = E) ∨ roundDiv N (D * 2 ^ E) % 2 = 0 ∨ roundDiv N (D * 2 ^ E) = 2 ^ p) := by
  have hB : 0 < D * 2 ^ E := Nat.mul_pos hD (Nat.pow_pos (by decide))
  have hpp := two_pow_pred hp
  rcases Nat.lt_trichotomy e' E with he | he | he
  · -- a smaller exponent: the number is below the bracket
    have hge' : 2 ^ (p - 1) * (D * 2 ^ E) ≤ N := by
      rcases hge with h | h
      · omega
      · exact h
    have hV : m' * 2 ^ e' * D < 2 ^ (p - 1) * (D * 2 ^ E) := by
      have a : m' * 2 ^ e' < 2 ^ p * 2 ^ e' := Nat.mul_lt_mul_of_pos_right h1 (Nat.pow_pos (by decide))
      have b : 2 ^ p * 2 ^ e' ≤ 2 ^ (p - 1) * 2 ^ E := by
        rw [← Nat.pow_add, ← Nat.pow_add]; exact Nat.pow_le_pow_right (by decide) (by omega)
      have c := Nat.mul_lt_mul_of_pos_right (Nat.lt_of_lt_of_le a b) hD
      have d : 2 ^ (p - 1) * 2 ^ E * D = 2 ^ (p - 1) * (D * 2 ^ E) := by rw [Nat.mul_assoc, Nat.mul_comm (2 ^ E) D]
      omega
    have hn := (roundDiv_nearest N (D * 2 ^ E) (2 ^ (p - 1)) hB).1
    generalize roundDiv N (D * 2 ^ E) * (D * 2 ^ E) = x at *
    generalize 2 ^ (p - 1) * (D * 2 ^ E) = y at *
    generalize m' * 2 ^ e' * D = z at *
    have hy : absDiff N y = N - y := by unfold absDiff; omega
    have hz : absDiff N z = N - z := by unfold absDiff; omega
    constructor
    · omega
    · intro h; omega
  · subst he
    have e : m' * 2 ^ e' * D = m' * (D * 2 ^ e') := by rw [Nat.mul_assoc, Nat.mul_comm (2 ^ e') D]
    rw [e]
    have hn := roundDiv_nearest N (D * 2 ^ e') m' hB
    refine ⟨hn.1, fun h => ?_⟩
    rcases hn.2 h with h | h
    · exact Or.inl ⟨h, rfl⟩
    · exact Or.inr (Or.inl h)
  · -- a larger exponent: the number is above the bracket
    have hm : 2 ^ (p - 1) ≤ m' := by
      rcases h3 with h | h
      · omega
      · exact h
    have hV : 2 ^ p * (D * 2 ^ E) ≤ m' * 2 ^ e' * D := by
      have a : 2 ^ p * 2 ^ E ≤ 2 ^ (p - 1) * 2 ^ e' := by
        rw [← Nat.pow_add, ← Nat.pow_add]; exact Nat.pow_le_pow_right (by decide) (by omega)
      have b : 2 ^ (p - 1) * 2 ^ e' ≤ m' * 2 ^ e' := Nat.mul_le_mul_right _ hm
      have c := Nat.mul_le_mul_right D (Nat.le_trans a b)
      have d : 2 ^ p * 2 ^ E * D = 2 ^ p * (D * 2 ^ E) := by rw [Nat.mul_assoc, Nat.mul_comm (2 ^ E) D]
      omega
    have hn := roundDiv_nearest N (D * 2 ^ E) (2 ^ p) hB
    generalize roundDiv N (D * 2 ^ E) = M at *
    generalize hx : M * (D * 2 ^ E) = x at *
    generalize hy : 2 ^ p * (D * 2 ^ E) = y at *
    generalize m' * 2 ^ e' * D = z at *
    have hy' : absDiff N y = y - N := by unfold absDiff; omega
    have hz : absDiff N z = z - N := by unfold absDiff; omega
    constructor
    · omega
    · intro h
      rcases hn.2 (by omega) with h | h
      · exact Or.inr (Or.inr h.symm)
      · exact Or.inr (Or.inl h)

theorem roundPos_some {f : FFmt} (hp : 2 ≤ f.prec) {num den m e : Nat} (hd : 0 < den) (h : roundPos f num den = some (m, e)) :
    NearestEven f num den m e := by
  have hcan := roundPos_canon f (by omega) num den m e h
  unfold roundPos at h
  simp only at h
  unfold gap at *
  refine ⟨hcan, ?_, ?_⟩ <;> intro m' e' hc <;> unfold gap at * <;>
    (generalize num * 2 ^ f.bias = N at *
     generalize hE : (Nat.log2 (N / den) + 1) - f.prec = E at h
     have hb := bracket f.prec N den E (by omega) hd hE
     have hn := near_raw f.prec N den E m' e' (by omega) hd hb.1 hb.2 hc.1 hc.2.2
     have hpp := two_pow_pred (p := f.prec) (by omega)
     have hpp' := two_pow_pred (p := f.prec - 1) (by omega)
     by_cases hM : roundDiv N (den * 2 ^ E) = 2 ^ f.prec
     · simp only [hM, if_true] at h
       split at h
       · simp at h
       · simp at h
         obtain ⟨rfl, rfl⟩ := h
         have hv : 2 ^ (f.prec - 1) * 2 ^ (E + 1) * den = roundDiv N (den * 2 ^ E) * (den * 2 ^ E) := by
           rw [hM, hpp, Nat.pow_succ]; ac_rfl
         rw [hv]
         first
           | exact hn.1
           | (intro _; right; rw [hpp']; omega)
     · simp only [hM, if_false] at h
       split at h
       · simp at h
       · simp at h
         obtain ⟨rfl, rfl⟩ := h
         have hv : roundDiv N (den * 2 ^ E) * 2 ^ E * den = roundDiv N (den * 2 ^ E) * (den * 2 ^ E) := by
           rw [Nat.mul_assoc, Nat.mul_comm (2 ^ E) den]
         rw [hv]
         first
           | exact hn.1
           | (intro ht
              rcases hn.2 ht with h | h | h
              · exact Or.inl h
              · exact Or.inr h
              · exact absurd h hM))

theorem roundPos_none {f : FFmt} (hp : 2 ≤ f.prec) {num den : Nat} (hd : 0 < den) :
    roundPos f num den = none ↔ TooBig f num den := by
  unfold roundPos TooBig
  simp only
  generalize num * 2 ^ f.bias = N at *
  generalize hE : (Nat.log2 (N / den) + 1) - f.prec = E
  have hb := bracket f.prec N den E (by omega) hd hE
  have hpp := two_pow_pred (p := f.prec) (by omega)
  have hP : 0 < 2 ^ (f.prec - 1) := Nat.pow_pos (by decide)
  have hB : 0 < den * 2 ^ E := Nat.mul_pos hd (Nat.pow_pos (by decide))
  have mono : ∀ a b, a ≤ b → 2 ^ a * den ≤ 2 ^ b * den := fun a b h => Nat.mul_le_mul_right _ (Nat.pow_le_pow_right (by decide) h)
  have comm : ∀ k a, k * 2 ^ a * den = k * (2 ^ a * den) := fun k a => Nat.mul_assoc ..
  have eB : den * 2 ^ E = 2 ^ E * den := Nat.mul_comm ..
  rw [comm]
  rcases Nat.lt_trichotomy E f.maxE with h | h | h
  · -- in range
    have h1 := mono (E + 1) f.maxE h
    rw [Nat.pow_succ] at h1
    have h2 : 2 ^ E * 2 * den = 2 * (2 ^ E * den) := by ac_rfl
    have h3 : ¬ (2 * 2 ^ f.prec - 1) * (2 ^ f.maxE * den) ≤ 2 * N := by
      have h4 : 2 ^ f.prec * (2 * (2 ^ E * den)) ≤ (2 * 2 ^ f.prec - 1) * (2 ^ f.maxE * den) :=
        Nat.mul_le_mul (by omega) (by omega)
      have h5 : 2 ^ f.prec * (2 * (2 ^ E * den)) = 2 * (2 ^ f.prec * (den * 2 ^ E)) := by ac_rfl
      omega
    refine iff_of_false ?_ h3
    by_cases hM : roundDiv N (den * 2 ^ E) = 2 ^ f.prec
    · simp only [hM, if_true]; rw [if_neg (by omega)]; simp
    · simp only [hM, if_false]; rw [if_neg (by omega)]; simp
  · rw [← h]
    have hf := roundDiv_facts N (den * 2 ^ E) hB
    have hr := roundDiv_le N (den * 2 ^ E)
    by_cases hM : roundDiv N (den * 2 ^ E) = 2 ^ f.prec
    · simp only [hM, if_true]
      rw [if_pos (by omega)]
      refine iff_of_true rfl ?_
      rw [hM] at hf
      rw [← eB, Nat.sub_mul, Nat.mul_assoc, Nat.one_mul]
      generalize 2 ^ f.prec * (den * 2 ^ E) = y at *
      unfold absDiff at hf
      omega
    · simp only [hM, if_false]
      rw [if_neg (by omega)]
      refine iff_of_false (by simp) ?_
      have hlt : N / (den * 2 ^ E) < 2 ^ f.prec := by
        rw [Nat.div_lt_iff_lt_mul hB]; exact hb.1
      have hle : roundDiv N (den * 2 ^ E) + 1 ≤ 2 ^ f.prec := by omega
      have h1 := Nat.mul_le_mul_right (den * 2 ^ E) hle
      rw [Nat.add_mul, Nat.one_mul] at h1
      rw [← eB, Nat.sub_mul, Nat.mul_assoc, Nat.one_mul]
      intro hbig
      generalize hm : roundDiv N (den * 2 ^ E) = M at *
      generalize hy : 2 ^ f.prec * (den * 2 ^ E) = y at *
      generalize hx : M * (den * 2 ^ E) = x at *
      have h2 : 2 * (N - x) = den * 2 ^ E := by unfold absDiff at hf; omega
      have h3 : y = x + den * 2 ^ E := by unfold absDiff at hf; omega
      have h4 : M + 1 = 2 ^ f.prec := by
        have : (M + 1) * (den * 2 ^ E) = 2 ^ f.prec * (den * 2 ^ E) := by rw [Nat.add_mul, Nat.one_mul]; omega
        exact Nat.eq_of_mul_eq_mul_right hB this
      have := hf.2 (by unfold absDiff at *; omega)
      omega
  · -- far too big
    have hE0 : E ≠ 0 := by omega
    have hge : 2 ^ (f.prec - 1) * (den * 2 ^ E) ≤ N := by
      rcases hb.2 with h' | h'
      · exact absurd h' hE0
      · exact h'
    refine iff_of_true ?_ ?_
    · by_cases hM : roundDiv N (den * 2 ^ E) = 2 ^ f.prec
      · simp only [hM, if_true]; rw [if_pos (by omega)]
      · simp only [hM, if_false]; rw [if_pos (by omega)]
    · have h1 := mono (f.maxE + 1) E h
      have h2 : 2 ^ (f.prec - 1) * (2 ^ (f.maxE + 1) * den) ≤ N := by
        refine Nat.le_trans (Nat.mul_le_mul_left _ h1) ?_
        rw [← eB]; exact hge
      have h3 : 2 ^ (f.prec - 1) * (2 ^ (f.maxE + 1) * den) = 2 ^ f.prec * (2 ^ f.maxE * den) := by
        rw [hpp, Nat.pow_succ]; ac_rfl
      have h4 : (2 * 2 ^ f.prec - 1) * (2 ^ f.maxE * den) ≤ (2 * 2 ^ f.prec) * (2 ^ f.maxE * den) := Nat.mul_le_mul_right _ (by omega)
      have h5 : (2 * 2 ^ f.prec) * (2 ^ f.maxE * den) = 2 * (2 ^ f.prec * (2 ^ f.maxE * den)) := Nat.mul_assoc ..
      omega

/-- Two representations of the same number in a format are equal, and a smaller exponent means a smaller number. -/
theorem canon_lt {f : FFmt} (hp : 0 < f.prec) {m e m' e' : Nat} (h : Canon f m e) (h' : Canon f m' e') (he : e' < e) :
    m' * 2 ^ e' < m * 2 ^ e := by
  have hm : 2 ^ (f.prec - 1) ≤ m := by
    rcases h.2.2 with h | h
    · omega
    · exact h
  have a : m' * 2 ^ e' < 2 ^ f.prec * 2 ^ e' := Nat.mul_lt_mul_of_pos_right h'.1 (Nat.pow_pos (by decide))
  have b : 2 ^ f.prec * 2 ^ e' ≤ 2 ^ (f.prec - 1) * 2 ^ e := by
    rw [← Nat.pow_add, ← Nat.pow_add]; exact Nat.pow_le_pow_right (by decide) (by omega)
  have c : 2 ^ (f.prec - 1) * 2 ^ e ≤ m * 2 ^ e := Nat.mul_le_mul_right _ hm
  omega

theorem canon_inj {f : FFmt} (hp : 0 < f.prec) {m e m' e' : Nat} (h : Canon f m e) (h' : Canon f m' e') (hv : m' * 2 ^ e' = m * 2 ^ e) :
    m' = m ∧ e' = e := by
  rcases Nat.lt_trichotomy e' e with he | he | he
  · have := canon_lt hp h h' he; omega
  · subst he; exact ⟨Nat.eq_of_mul_eq_mul_right (Nat.pow_pos (by decide)) hv, rfl⟩
  · have := canon_lt hp h' h he; omega

theorem canon_succ_le {f : FFmt} (hp : 0 < f.prec) {m e m' e' : Nat} (h : Canon f m e) (h' : Canon f m' e') (hv : m * 2 ^ e < m' * 2 ^ e') :
    (m + 1) * 2 ^ e ≤ m' * 2 ^ e' := by
  rcases Nat.lt_trichotomy e' e with he | he | he
  · have := canon_lt hp h h' he; omega
  · subst he
    exact Nat.mul_le_mul_right _ (Nat.lt_of_mul_lt_mul_right hv)
  · have hm : 2 ^ (f.prec - 1) ≤ m' := by
      rcases h'.2.2 with h | h
      · omega
      · exact h
    have a : 2 ^ f.prec * 2 ^ e ≤ 2 ^ (f.prec - 1) * 2 ^ e' := by
      rw [← Nat.pow_add, ← Nat.pow_add]; exact Nat.pow_le_pow_right (by decide) (by omega)
    have b : 2 ^ (f.prec - 1) * 2 ^ e' ≤ m' * 2 ^ e' := Nat.mul_le_mul_right _ hm
    have c : (m + 1) * 2 ^ e ≤ 2 ^ f.prec * 2 ^ e := Nat.mul_le_mul_right _ h.1
    omega

theorem nearest_lt {f : FFmt} (hp : 2 ≤ f.prec) {num den m e m' e' : Nat} (hd : 0 < den) (h : NearestEven f num den m e)
    (h' : NearestEven f num den m' e') (hv : m * 2 ^ e < m' * 2 ^ e') : False := by
  have hg : gap f num den m' e' = gap f num den m e := Nat.le_antisymm (h'.nearest _ _ h.inFormat) (h.nearest _ _ h'.inFormat)
  have me : m % 2 = 0 := by
    rcases h.tie _ _ h'.inFormat hg with ⟨rfl, rfl⟩ | h
    · omega
    · exact h
  have me' : m' % 2 = 0 := by
    rcases h'.tie _ _ h.inFormat hg.symm with ⟨rfl, rfl⟩ | h
    · omega
    · exact h
  have hpp := two_pow_pred (p := f.prec) (by omega)
  have hc : Canon f (m + 1) e := by
    refine ⟨by have := h.inFormat.1; omega, h.inFormat.2.1, ?_⟩
    rcases h.inFormat.2.2 with h | h
    · exact Or.inl h
    · exact Or.inr (by omega)
  have hle := canon_succ_le (by omega) h.inFormat h'.inFormat hv
  have hne : (m + 1) * 2 ^ e ≠ m' * 2 ^ e' := by
    intro heq
    have := canon_inj (by omega) h'.inFormat hc heq
    omega
  have hn := h.nearest _ _ hc
  have hn' := h'.nearest _ _ hc
  unfold gap at *
  have h1 : m * 2 ^ e * den < (m + 1) * 2 ^ e * den := Nat.mul_lt_mul_of_pos_right
    (Nat.mul_lt_mul_of_pos_right (Nat.lt_succ_self m) (Nat.pow_pos (by decide))) hd
  have h2 : (m + 1) * 2 ^ e * den < m' * 2 ^ e' * den := Nat.mul_lt_mul_of_pos_right (by omega) hd
  generalize num * 2 ^ f.bias = N at *
  generalize m * 2 ^ e * den = x at *
  generalize (m + 1) * 2 ^ e * den = y at *
  generalize m' * 2 ^ e' * den = z at *
  unfold absDiff at *
  omega

theorem nearest_unique {f : FFmt} (hp : 2 ≤ f.prec) {num den m e m' e' : Nat} (hd : 0 < den) (h : NearestEven f num den m e)
    (h' : NearestEven f num den m' e') : m' = m ∧ e' = e := by
  rcases Nat.lt_trichotomy (m * 2 ^ e) (m' * 2 ^ e') with hv | hv | hv
  · exact (nearest_lt hp hd h h' hv).elim
  · exact canon_inj (by omega) h.inFormat h'.inFormat hv.symm
  · exact (nearest_lt hp hd h' h hv).elim

theorem roundPos_iff {f : FFmt} (hp : 2 ≤ f.prec) {num den m e : Nat} (hd : 0 < den) :
    roundPos f num den = some (m, e) ↔ NearestEven f num den m e ∧ ¬ TooBig f num den := by
  constructor
  · intro h
    refine ⟨roundPos_some hp hd h, fun hb => ?_⟩
    rw [(roundPos_none hp hd).2 hb] at h; cases h
  · intro ⟨h, hb⟩
    cases hr : roundPos f num den with
    | none => exact absurd ((roundPos_none hp hd).1 hr) hb
    | some p =>
      obtain ⟨m', e'⟩ := p
      have := nearest_unique hp hd h (roundPos_some hp hd hr)
      rw [this.1, this.2]

end Jsonutils
