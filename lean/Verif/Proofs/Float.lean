import Verif.Proofs.StrconvInt

/-! `parseFloat ∘ formatFloat` is the identity on canonical float64 values. -/

set_option linter.unusedSimpArgs false

namespace Jsonutils

theorem roundDiv_mul (a b : Nat) (hb : 0 < b) : roundDiv (a * b) b = a := by
  unfold roundDiv
  simp only [Nat.mul_div_cancel a hb, Nat.mul_mod_left]
  rw [if_neg]
  omega

theorem log2_mul_pow (m e p : Nat) (hm : m < 2 ^ p) (hp : 0 < p) (hn : e = 0 ∨ 2 ^ (p - 1) ≤ m) (h0 : 0 < m) :
    (Nat.log2 (m * 2 ^ e) + 1) - p = e := by
  rcases hn with rfl | hn
  · simp
    have : m.log2 < p := (Nat.log2_lt (by omega)).2 hm
    omega
  · have h1 : Nat.log2 (m * 2 ^ e) = p - 1 + e := by
      have hne : m * 2 ^ e ≠ 0 := by
        have := Nat.pow_pos (n := e) (by decide : 0 < 2)
        exact Nat.ne_of_gt (Nat.mul_pos h0 this)
      have hlo : 2 ^ (p - 1 + e) ≤ m * 2 ^ e := by
        rw [Nat.pow_add]; exact Nat.mul_le_mul_right _ hn
      have hhi : m * 2 ^ e < 2 ^ (p - 1 + e + 1) := by
        have : p - 1 + e + 1 = p + e := by omega
        rw [this, Nat.pow_add]
        exact Nat.mul_lt_mul_of_pos_right hm (Nat.pow_pos (by decide))
      have a := (Nat.le_log2 hne).2 hlo
      have b := (Nat.log2_lt hne).2 hhi
      omega
    omega

/-- Rounding a representable value (given as an exact fraction) is the identity. -/
theorem roundPos_exact (f : FFmt) (m e num den : Nat) (hp : 0 < f.prec) (hc : Canon f m e) (h0 : 0 < m)
    (hd : 0 < den) (h : num * 2 ^ f.bias = m * 2 ^ e * den) : roundPos f num den = some (m, e) := by
  obtain ⟨h1, h2, h3⟩ := hc
  unfold roundPos
  simp only [h]
  rw [Nat.mul_div_cancel _ hd, log2_mul_pow m e f.prec h1 hp h3 h0]
  have : m * 2 ^ e * den = m * (den * 2 ^ e) := by
    rw [Nat.mul_assoc, Nat.mul_comm (2 ^ e) den]
  rw [this, roundDiv_mul _ _ (Nat.mul_pos hd (Nat.pow_pos (by decide)))]
  have : m ≠ 2 ^ f.prec := by omega
  simp only [this, if_false]
  rw [if_neg (by omega)]

theorem shortestAux_rounds (f : FFmt) (m e : Nat) (hp : 0 < f.prec) (hc : Canon f m e) (h0 : 0 < m)
    (fuel : Nat) (k : Int) :
    roundsTo f (shortestAux f m e fuel k).1 (shortestAux f m e fuel k).2 m e = true := by
  induction fuel generalizing k with
  | zero =>
    unfold shortestAux roundsTo
    simp only
    split
    · rename_i hb
      have hb0 : f.bias = 0 := by omega
      rw [roundPos_exact f m e _ _ hp hc h0] <;> simp [hb0]
    · rw [roundPos_exact f m e _ _ hp hc h0]
      · simp
      · exact Nat.pow_pos (by decide)
      · simp only [Int.neg_neg, Int.toNat_natCast]
        rw [Nat.mul_assoc, ← Nat.mul_pow]
  | succ fuel ih =>
    unfold shortestAux
    simp only
    generalize (if 0 ≤ k then m * 2 ^ e else m * 2 ^ e * 10 ^ (-k).toNat) = a
    generalize (if 0 ≤ k then 2 ^ f.bias * 10 ^ k.toNat else 2 ^ f.bias) = b
    split
    · rename_i h
      simp only [Bool.and_eq_true] at h
      split
      · exact h.1
      · exact h.2
    · split
      · assumption
      · split
        · assumption
        · exact ih _

theorem shortest_rounds (f : FFmt) (m e : Nat) (hp : 0 < f.prec) (hc : Canon f m e) (h0 : 0 < m) :
    roundsTo f (shortest f m e).1 (shortest f m e).2 m e = true :=
  shortestAux_rounds f m e hp hc h0 _ _

/-! ### Scanning digits -/

theorem isDigit_ne {c d : UInt8} (h : isDigit c = true) (hd : isDigit d = false) : c ≠ d := by
  rintro rfl; simp_all

theorem scanMant_digits (ds t : Bytes) (st : MantScan) (v : Nat) (h : digitsVal ds st.mant = some v) :
    scanMant 10 (ds ++ t) st =
      scanMant 10 t { st with mant := v, nd := st.nd + ds.length,
                              frac := if st.sawdot then st.frac + ds.length else st.frac,
                              sawdigits := st.sawdigits || !ds.isEmpty } := by
  induction ds generalizing st with
  | nil => simp [digitsVal] at h; simp [← h]
  | cons c cs ih =>
    unfold digitsVal at h
    split at h
    · rename_i hc
      have h1 : c ≠ 95 := isDigit_ne hc (by decide)
      have h2 : c ≠ 46 := isDigit_ne hc (by decide)
      have h3 : digitValBase 10 c = some (c.toNat - 48) := by simp [digitValBase, hc]
      simp only [List.cons_append]
      rw [scanMant]
      simp only [h1, h2, if_false, h3]
      rw [ih _ h]
      congr 1
      simp
      cases st.sawdot <;> simp <;> omega
    · simp at h

theorem digitsVal_replicate_zero (n acc : Nat) : digitsVal (List.replicate n 48) acc = some (acc * 10 ^ n) := by
  induction n generalizing acc with
  | zero => simp [digitsVal]
  | succ n ih =>
    rw [List.replicate_succ, digitsVal]
    rw [if_pos (by decide), ih]
    simp [Nat.pow_succ]
    rw [Nat.mul_assoc, Nat.mul_comm 10]

theorem digitsVal_some_digits {s : Bytes} {a v : Nat} (h : digitsVal s a = some v) : ∀ c ∈ s, isDigit c = true :=
  (digitsVal_isSome_iff s a).1 (by rw [h]; rfl)

/-- The shape of a positional decimal text. -/
theorem decText_shape (c : Nat) (k : Int) :
    (0 ≤ k ∧ ∃ ds, decText c k = ds ∧ ds ≠ [] ∧ digitsVal ds 0 = some (c * 10 ^ k.toNat)) ∨
    (k < 0 ∧ ∃ a b, decText c k = a ++ 46 :: b ∧ a ≠ [] ∧ b.length = (-k).toNat ∧
      digitsVal (a ++ b) 0 = some c) := by
  unfold decText
  by_cases hk : 0 ≤ k
  · left
    refine ⟨hk, _, rfl, ?_, ?_⟩
    · simp [hk, natDec_ne_nil]
    · simp only [hk, if_true]
      rw [digitsVal_append, digitsVal_natDec]
      simp [digitsVal_replicate_zero]
  · right
    refine ⟨by omega, ?_⟩
    simp only [hk, if_false]
    generalize hd : (-k).toNat = d
    generalize hs : List.replicate (d + 1 - (natDec c).length) 48 ++ natDec c = s
    have hl : d + 1 ≤ s.length := by rw [← hs]; simp; omega
    refine ⟨_, _, rfl, ?_, ?_, ?_⟩
    · intro h
      have := congrArg List.length h
      simp at this
      omega
    · simp; omega
    · rw [List.take_append_drop, ← hs, digitsVal_append, digitsVal_replicate_zero]
      simp [digitsVal_natDec]

theorem decText_chars (c : Nat) (k : Int) : ∀ x ∈ decText c k, isDigit x = true ∨ x = 46 := by
  intro x hx
  rcases decText_shape c k with ⟨_, ds, h, _, hv⟩ | ⟨_, a, b, h, _, _, hv⟩
  · rw [h] at hx; exact Or.inl (digitsVal_some_digits hv x hx)
  · rw [h] at hx
    have hh := digitsVal_some_digits hv
    rcases List.mem_append.1 hx with h1 | h1
    · exact Or.inl (hh x (by simp [h1]))
    · rcases List.mem_cons.1 h1 with h2 | h2
      · exact Or.inr h2
      · exact Or.inl (hh x (by simp [h2]))

theorem decText_head (c : Nat) (k : Int) : ∃ d t, decText c k = d :: t ∧ isDigit d = true := by
  rcases decText_shape c k with ⟨_, ds, h, hne, hv⟩ | ⟨_, a, b, h, hne, _, hv⟩
  · cases ds with
    | nil => exact absurd rfl hne
    | cons d t => exact ⟨d, t, h, digitsVal_some_digits hv d (by simp)⟩
  · cases a with
    | nil => exact absurd rfl hne
    | cons d t => exact ⟨d, t ++ 46 :: b, h, digitsVal_some_digits hv d (by simp)⟩

theorem splitSign_digit {d : UInt8} {t : Bytes} (h : isDigit d = true) : splitSign (d :: t) = (false, false, d :: t) := by
  have h1 : d ≠ 43 := isDigit_ne h (by decide)
  have h2 : d ≠ 45 := isDigit_ne h (by decide)
  unfold splitSign
  split <;> simp_all

theorem lowerByte_digit {d : UInt8} (h : isDigit d = true) : lowerByte d = d := by
  rw [isDigit_iff] at h
  unfold lowerByte
  have : ¬ ((65 : UInt8) ≤ d) := by rw [UInt8.le_iff_toNat_le]; simp; omega
  simp [this]

/-- Texts made of digits and dots, starting with a digit, are read by the decimal path. -/
theorem parseFloat_digits (neg : Bool) (s : Bytes) (d : UInt8) (t : Bytes) (hs : s = d :: t)
    (hd : isDigit d = true) (hx : ∀ x ∈ s, isDigit x = true ∨ x = 46) :
    parseFloat (signBytes neg ++ s) = parseNum neg false (signBytes neg ++ s) s := by
  subst hs
  unfold parseFloat
  have hsg : (splitSign (signBytes neg ++ d :: t)).1 = neg ∧ (splitSign (signBytes neg ++ d :: t)).2.2 = d :: t := by
    cases neg
    · simp [signBytes, splitSign_digit hd]
    · simp [signBytes, splitSign]
  simp only [hsg.1, hsg.2]
  have hlow : ∀ c w, lowerBytes (d :: t) = c :: w → c = d := by
    intro c w h; simp [lowerBytes, lowerByte_digit hd] at h; exact h.1.symm
  rw [if_neg, if_neg, if_neg]
  · cases t with
    | nil => simp [hexPrefix]
    | cons c t =>
      have hc := hx c (by simp)
      unfold hexPrefix
      split
      · rename_i c' _ _ heq
        simp at heq
        obtain ⟨rfl, rfl, rfl⟩ := heq
        rcases hc with hc | rfl
        · rw [lowerByte_digit hc]
          have := isDigit_ne (d := 120) hc (by decide)
          simpa using this
        · decide
      · simp
  · intro h; have := hlow _ _ h; subst this; revert hd; decide
  · rintro (h | h) <;> (have := hlow _ _ h; subst this; revert hd; decide)

theorem mkFloat_of {a b m e : Nat} (neg : Bool) (h : roundPos f64 a b = some (m, e)) :
    mkFloat neg a b = some (.fin neg m e) := by
  have : mkFloat neg a b = Option.map (fun p => GoFloat.fin neg p.1 p.2) (roundPos f64 a b) := rfl
  rw [this, h, Option.map_some]

theorem parseNum_decText (neg : Bool) (s : Bytes) (c : Nat) (k : Int) (m e : Nat)
    (h : roundsTo f64 c k m e = true) : parseNum neg false s (decText c k) = some (.fin neg m e) := by
  unfold parseNum
  simp only [Bool.false_eq_true, if_false]
  unfold roundsTo at h
  rcases decText_shape c k with ⟨hk, ds, hs, hne, hv⟩ | ⟨hk, a, b, hs, hne, hb, hv⟩
  · rw [hs]
    have := scanMant_digits ds [] ⟨0, 0, 0, false, false, false, []⟩ _ hv
    rw [List.append_nil] at this
    rw [this]
    simp only [hk, if_true] at h
    have h' := eq_of_beq h
    simp [scanMant, hne, parseExp, mkFloat_of neg h']
  · rw [hs]
    obtain ⟨v, hva⟩ : ∃ v, digitsVal a 0 = some v := by
      rw [digitsVal_append] at hv
      cases h2 : digitsVal a 0 with
      | none => rw [h2] at hv; simp at hv
      | some v => exact ⟨v, rfl⟩
    have hvb : digitsVal b v = some c := by rw [digitsVal_append, hva] at hv; simpa using hv
    rw [scanMant_digits a (46 :: b) _ v hva]
    rw [scanMant]
    simp only [show (46 : UInt8) ≠ 95 by decide, if_false, if_true, Bool.false_eq_true]
    have := scanMant_digits b [] ⟨v, 0 + a.length, 0, true, false || !a.isEmpty, false, []⟩ c hvb
    rw [List.append_nil] at this
    rw [this]
    have hk' : ¬ (0 ≤ k) := by omega
    simp only [hk', if_false] at h
    have h' := eq_of_beq h
    have e1 : ((0 : Int) - (1 : Int) * ((0 + b.length : Nat) : Int)) = k := by omega
    simp [scanMant, hne, parseExp, hb]
    rw [if_neg (by omega)]
    have : (max (-k) 0).toNat = (-k).toNat := by omega
    rw [this]
    exact mkFloat_of neg h'

/-- The 64-bit text of a canonical value, decomposed. -/
theorem fmtMag_decText (f : FFmt) (m e : Nat) : ∃ c k, fmtMag f m e = decText c k ∧
    (0 < m → (c, k) = shortest f m e) ∧ (m = 0 → c = 0 ∧ k = 0) := by
  unfold fmtMag
  by_cases h : m = 0
  · refine ⟨0, 0, ?_, by omega, by simp⟩
    simp [h, decText, natDec_lt, digitByte]
  · refine ⟨(shortest f m e).1, (shortest f m e).2, by simp [h], by simp, fun h' => absurd h' h⟩

theorem roundsTo_zero : roundsTo f64 0 0 0 0 = true := by decide +kernel

theorem Canon_zero {m e : Nat} (h : Canon f64 m e) (hm : m = 0) : e = 0 := by
  obtain ⟨_, _, h3⟩ := h
  rcases h3 with h3 | h3
  · exact h3
  · have h4 : 2 ^ (f64.prec - 1) = 4503599627370496 := rfl
    omega

theorem fmtMag64_rounds {m e : Nat} (hc : Canon f64 m e) :
    ∃ c k, fmtMag f64 m e = decText c k ∧ roundsTo f64 c k m e = true := by
  obtain ⟨c, k, h1, h2, h3⟩ := fmtMag_decText f64 m e
  refine ⟨c, k, h1, ?_⟩
  by_cases hm : m = 0
  · obtain ⟨rfl, rfl⟩ := h3 hm
    have := Canon_zero hc hm
    subst hm; subst this
    exact roundsTo_zero
  · have := shortest_rounds f64 m e (by decide) hc (by omega)
    rw [← h2 (by omega)] at this
    exact this

theorem parseFloat_formatFloat (x : GoFloat) (hx : x.Canonical) : parseFloat (formatFloat x 64) = some x := by
  cases x with
  | nan => decide
  | inf neg => cases neg <;> decide
  | fin neg m e =>
    obtain ⟨c, k, h1, h2⟩ := fmtMag64_rounds hx
    obtain ⟨d, t, h3, h4⟩ := decText_head c k
    have : formatFloat (.fin neg m e) 64 = signBytes neg ++ decText c k := by
      simp [formatFloat, h1]
    rw [this, parseFloat_digits neg _ d t h3 h4 (decText_chars c k)]
    exact parseNum_decText neg _ c k m e h2

end Jsonutils
