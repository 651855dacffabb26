import Verif.Proofs.RoundTrip

/-! What `reread` does: relation to the original document and to its text. -/

set_option linter.unusedSimpArgs false

namespace Jsonutils

theorem digitsVal_dot (a b : Bytes) (n : Nat) : digitsVal (a ++ 46 :: b) n = none := by
  rw [digitsVal_append]
  cases digitsVal a n <;> simp [digitsVal, isDigit]

/-- `parseInt` of a signed decimal text. -/
theorem parseInt_signed (neg : Bool) (c : Nat) (k : Int) (n : Int)
    (h : parseInt (signBytes neg ++ decText c k) = some n) :
    0 ≤ k ∧ n = (if neg then -((c * 10 ^ k.toNat : Nat) : Int) else ((c * 10 ^ k.toNat : Nat) : Int)) ∧ InI64 n := by
  obtain ⟨d, t, hd, hdig⟩ := decText_head c k
  have hd1 : d ≠ 43 := isDigit_ne hdig (by decide)
  have hd2 : d ≠ 45 := isDigit_ne hdig (by decide)
  rcases decText_shape c k with ⟨hk, ds, hs, hne, hv⟩ | ⟨hk, a, b, hs, hne, hb, hv⟩
  · refine ⟨hk, ?_⟩
    have hv' : digitsVal (d :: t) 0 = some (c * 10 ^ k.toNat) := by rw [← hd, hs, hv]
    rw [hd] at h
    cases neg
    · simp only [signBytes, Bool.false_eq_true, if_false, List.nil_append] at h
      unfold parseInt at h
      split at h
      · simp_all
      · simp_all
      · simp_all
      · simp only [hv'] at h
        simp only [Bool.false_eq_true, if_false] at h ⊢
        split at h
        · simp at h; subst h; constructor; · simp
          · simpa using ‹InI64 _›
        · simp at h
    · simp only [signBytes, if_true, List.cons_append, List.nil_append] at h
      unfold parseInt at h
      simp only [hv'] at h
      simp only [if_true] at h ⊢
      split at h
      · simp at h; subst h; constructor; · simp
        · simpa using ‹InI64 _›
      · simp at h
  · exfalso
    have hv' : digitsVal (d :: t) 0 = none := by rw [← hd, hs, digitsVal_dot]
    rw [hd] at h
    cases neg
    · simp only [signBytes, Bool.false_eq_true, if_false, List.nil_append] at h
      unfold parseInt at h
      split at h
      · simp_all
      · simp_all
      · simp_all
      · simp only [hv'] at h; simp at h
    · simp only [signBytes, if_true, List.cons_append, List.nil_append] at h
      unfold parseInt at h
      simp only [hv'] at h; simp at h

theorem roundPos_zero_num : roundPos f64 0 1 = some (0, 0) := by decide +kernel

theorem roundPos_zero_num' (d : Nat) : roundPos f64 0 d = some (0, 0) := by
  have : roundPos f64 0 d = roundPos f64 0 1 := by
    unfold roundPos roundDiv; simp
  rw [this, roundPos_zero_num]

/-- Finite float text: the decomposition with its rounding property. -/
theorem formatFloat64_fin (neg : Bool) (m e : Nat) (hc : Canon f64 m e) :
    ∃ c k, formatFloat (.fin neg m e) 64 = signBytes neg ++ decText c k ∧ roundsTo f64 c k m e = true ∧
      (m = 0 → c = 0 ∧ k = 0) := by
  obtain ⟨c, k, h1, h2, h3⟩ := fmtMag_decText f64 m e
  refine ⟨c, k, by simp [formatFloat, h1], ?_, h3⟩
  by_cases hm : m = 0
  · obtain ⟨rfl, rfl⟩ := h3 hm
    have := Canon_zero hc hm
    subst hm; subst this
    exact roundsTo_zero
  · have := shortest_rounds f64 m e (by decide) hc (by omega)
    rw [← h2 (by omega)] at this
    exact this

theorem roundsTo_nonneg {c m e : Nat} {k : Int} (hk : 0 ≤ k) (h : roundsTo f64 c k m e = true) :
    roundPos f64 (c * 10 ^ k.toNat) 1 = some (m, e) := by
  unfold roundsTo at h
  rw [if_pos hk] at h
  exact eq_of_beq h

/-- An integer text denotes an integer equal in value to the float. -/
theorem int_text_value (x : GoFloat) (hx : x.Canonical) (n : Int) (h : parseInt (formatFloat x 64) = some n) :
    (floatOfInt n).feq x = true := by
  cases x with
  | nan => exact absurd (h.symm.trans (by decide : parseInt (formatFloat .nan 64) = none)) (by simp)
  | inf neg => exact absurd (h.symm.trans (by cases neg <;> decide : parseInt (formatFloat (.inf neg) 64) = none)) (by simp)
  | fin neg m e =>
    obtain ⟨c, k, h1, h2, h3⟩ := formatFloat64_fin neg m e hx
    rw [h1] at h
    obtain ⟨hk, hn, _⟩ := parseInt_signed neg c k n h
    have hr := roundsTo_nonneg hk h2
    generalize c * 10 ^ k.toNat = N at hr hn
    unfold floatOfInt
    by_cases h0 : n = 0
    · have hN : N = 0 := by cases neg <;> simp at hn <;> omega
      rw [hN, roundPos_zero_num] at hr
      simp at hr
      simp [h0, GoFloat.feq, hr.1.symm]
    · have hN : n.natAbs = N := by cases neg <;> simp at hn <;> omega
      have hneg : decide (n < 0) = neg := by cases neg <;> simp at hn ⊢ <;> omega
      rw [if_neg h0, hN]
      simp only [hr]
      simp [GoFloat.feq, hneg]

theorem numberOf_float64 (x : GoFloat) (hx : x.Canonical) :
    numberOf (formatFloat x 64) = .float x 0 ∨
      ∃ n, numberOf (formatFloat x 64) = .int n ∧ parseInt (formatFloat x 64) = some n := by
  unfold numberOf
  cases h : parseInt (formatFloat x 64) with
  | some n => right; exact ⟨n, rfl, rfl⟩
  | none => left; simp only [parseFloat_formatFloat x hx]

theorem floatBits_wide {b : Nat} (h : b ≠ 32) : floatBits b = 64 := by
  unfold floatBits; split <;> omega

mutual
theorem same_reread : (v : J) → v.WF → v.Plain → v.Wide → J.Same v v.reread
  | .null, _, _, _ => rfl
  | .bool _, _, _, _ => rfl
  | .int _, _, _, _ => rfl
  | .str _, _, _, _ => rfl
  | .ptr _, _, h, _ => h.elim
  | .float x b, hw, _, hwide => by
      have hb : b ≠ 32 := hwide
      rw [J.reread, floatBits_wide hb, J.Same]
      rcases numberOf_float64 x hw with h | ⟨n, h, hp⟩
      · exact Or.inl ⟨0, h⟩
      · exact Or.inr ⟨n, h, int_text_value x hw n hp⟩
  | .arr xs, hw, hp, hwide => ⟨_, rfl, same_rereads xs hw hp hwide⟩
  | .dict id kvs, hw, hp, hwide => by
      obtain ⟨rfl, hp⟩ := hp
      exact ⟨_, by simp [J.reread], same_rereadf kvs hw.2 hp hwide⟩
theorem same_rereads : (xs : List J) → J.WFs xs → J.Plains xs → J.FloatsSats (fun _ bit => bit ≠ 32) xs →
    J.Sames xs (J.rereads xs)
  | [], _, _, _ => rfl
  | x :: xs, hw, hp, hwide => ⟨_, _, rfl, same_reread x hw.1 hp.1 hwide.1, same_rereads xs hw.2 hp.2 hwide.2⟩
theorem same_rereadf : (xs : List (Bytes × J)) → J.WFf xs → J.Plainf xs → J.FloatsSatf (fun _ bit => bit ≠ 32) xs →
    J.Samef xs (J.rereadf xs)
  | [], _, _, _ => rfl
  | (_, x) :: xs, hw, hp, hwide =>
    ⟨_, _, rfl, same_reread x hw.1 hp.2.1 hwide.1, same_rereadf xs hw.2 hp.2.2 hwide.2⟩
end

mutual
theorem reread_noFloat : (v : J) → v.Plain → v.NoFloat → v.reread = v
  | .null, _, _ => rfl
  | .bool _, _, _ => rfl
  | .int _, _, _ => rfl
  | .str _, _, _ => rfl
  | .ptr _, h, _ => h.elim
  | .float _ _, _, h => h.elim
  | .arr xs, hp, hn => by rw [J.reread, rereads_noFloat xs hp hn]
  | .dict id kvs, hp, hn => by rw [J.reread, rereadf_noFloat kvs hp.2 hn, hp.1]; simp
theorem rereads_noFloat : (xs : List J) → J.Plains xs → J.FloatsSats (fun _ _ => False) xs → J.rereads xs = xs
  | [], _, _ => rfl
  | x :: xs, hp, hn => by rw [J.rereads, reread_noFloat x hp.1 hn.1, rereads_noFloat xs hp.2 hn.2]
theorem rereadf_noFloat : (xs : List (Bytes × J)) → J.Plainf xs → J.FloatsSatf (fun _ _ => False) xs →
    J.rereadf xs = xs
  | [], _, _ => rfl
  | (k, x) :: xs, hp, hn => by rw [J.rereadf, reread_noFloat x hp.2.1 hn.1, rereadf_noFloat xs hp.2.2 hn.2]
end

mutual
theorem refable_of_plain : (v : J) → v.Plain → v.Refable ∧ v.nodeIds = []
  | .null, _ => ⟨trivial, rfl⟩
  | .bool _, _ => ⟨trivial, rfl⟩
  | .int _, _ => ⟨trivial, rfl⟩
  | .str _, _ => ⟨trivial, rfl⟩
  | .ptr _, h => h.elim
  | .float _ _, _ => ⟨trivial, rfl⟩
  | .arr xs, h => by
      have := refables_of_plain xs h
      exact ⟨this.1, by simp [J.nodeIds, this.2]⟩
  | .dict id kvs, h => by
      have := refablef_of_plain kvs h.2
      refine ⟨⟨by rw [h.1]; decide, this.1⟩, by simp [J.nodeIds, this.2, h.1]⟩
theorem refables_of_plain : (xs : List J) → J.Plains xs → J.Refables xs ∧ J.nodeIdss xs = []
  | [], _ => ⟨trivial, rfl⟩
  | x :: xs, h => by
      have h1 := refable_of_plain x h.1
      have h2 := refables_of_plain xs h.2
      exact ⟨⟨h1.1, h2.1⟩, by simp [J.nodeIdss, h1.2, h2.2]⟩
theorem refablef_of_plain : (xs : List (Bytes × J)) → J.Plainf xs → J.Refablef xs ∧ J.nodeIdsf xs = []
  | [], _ => ⟨trivial, rfl⟩
  | (k, x) :: xs, h => by
      have h1 := refable_of_plain x h.2.1
      have h2 := refablef_of_plain xs h.2.2
      exact ⟨⟨h.1, h1.1, h2.1⟩, by simp [J.nodeIdsf, h1.2, h2.2]⟩
end

/-! ### Re-printing -/

theorem natDec_mul_pow (c : Nat) (hc : 0 < c) (k : Nat) : natDec (c * 10 ^ k) = natDec c ++ List.replicate k 48 := by
  induction k with
  | zero => simp
  | succ k ih =>
    have hpos : 0 < 10 ^ k := Nat.pow_pos (by decide)
    have h1 : 0 < c * 10 ^ k := Nat.mul_pos hc hpos
    have h2 : c * 10 ^ (k + 1) = 10 * (c * 10 ^ k) := by
      rw [Nat.pow_succ, ← Nat.mul_assoc, Nat.mul_comm 10]
    rw [h2, natDec_ge (by omega)]
    have h3 : 10 * (c * 10 ^ k) / 10 = c * 10 ^ k := by omega
    have h4 : 10 * (c * 10 ^ k) % 10 = 0 := by omega
    rw [h3, h4, ih, List.replicate_succ', List.append_assoc]
    simp [digitByte]

theorem decText_int (c : Nat) (k : Int) (hk : 0 ≤ k) (hc : 0 < c ∨ k = 0) : decText c k = natDec (c * 10 ^ k.toNat) := by
  unfold decText
  rw [if_pos hk]
  rcases hc with hc | rfl
  · rw [natDec_mul_pow c hc]
  · simp

theorem int_text_reprint (x : GoFloat) (hx : x.Canonical) (hz : NotNegZero x) (n : Int)
    (h : parseInt (formatFloat x 64) = some n) : intDec n = formatFloat x 64 := by
  cases x with
  | nan => exact absurd (h.symm.trans (by decide : parseInt (formatFloat .nan 64) = none)) (by simp)
  | inf neg => exact absurd (h.symm.trans (by cases neg <;> decide : parseInt (formatFloat (.inf neg) 64) = none)) (by simp)
  | fin neg m e =>
    obtain ⟨c, k, h1, h2, h3⟩ := formatFloat64_fin neg m e hx
    rw [h1] at h
    obtain ⟨hk, hn, _⟩ := parseInt_signed neg c k n h
    have hr := roundsTo_nonneg hk h2
    have hc : 0 < c ∨ k = 0 := by
      by_cases hm : m = 0
      · exact Or.inr (h3 hm).2
      · left
        rcases Nat.eq_zero_or_pos c with rfl | hc
        · rw [Nat.zero_mul, roundPos_zero_num] at hr
          simp at hr; omega
        · exact hc
    rw [h1, decText_int c k hk hc]
    have hm0 : c * 10 ^ k.toNat = 0 → m = 0 := by
      intro h; rw [h, roundPos_zero_num] at hr; simp at hr; exact hr.1.symm
    generalize c * 10 ^ k.toNat = N at hr hn hm0
    cases neg with
    | false =>
      simp at hn; subst hn
      simp [signBytes, intDec]
    | true =>
      simp at hn; subst hn
      have : N ≠ 0 := by
        intro hN
        have := hm0 hN
        subst this
        exact hz
      simp [signBytes, intDec]
      omega

mutual
theorem toBytes_reread : (v : J) → v.WF → v.Wide → v.FloatsSat (fun x _ => NotNegZero x) →
    v.reread.toBytes = v.toBytes
  | .null, _, _, _ => rfl
  | .bool _, _, _, _ => rfl
  | .int _, _, _, _ => rfl
  | .str _, _, _, _ => rfl
  | .ptr _, _, _, _ => rfl
  | .float x b, hw, hb, hz => by
      rw [J.reread, floatBits_wide hb, J.toBytes, floatBits_wide hb]
      rcases numberOf_float64 x hw with h | ⟨n, h, hp⟩
      · rw [h, J.toBytes]; rfl
      · rw [h, J.toBytes, int_text_reprint x hw hz n hp]
  | .arr xs, hw, hb, hz => by rw [J.reread, J.toBytes, J.toBytes, arrBytes_reread xs true hw hb hz]
  | .dict id kvs, hw, hb, hz => by
      rw [J.reread, J.toBytes, J.toBytes, dictBytes_reread kvs false hw.2 hb hz,
        dictBytes_reread kvs true hw.2 hb hz]
      by_cases h : 0 < id <;> simp [h]
theorem arrBytes_reread : (xs : List J) → (b : Bool) → J.WFs xs → J.FloatsSats (fun _ bit => bit ≠ 32) xs →
    J.FloatsSats (fun x _ => NotNegZero x) xs → J.arrBytes (J.rereads xs) b = J.arrBytes xs b
  | [], _, _, _, _ => rfl
  | x :: xs, b, hw, hb, hz => by
      rw [J.rereads, J.arrBytes, J.arrBytes, toBytes_reread x hw.1 hb.1 hz.1,
        arrBytes_reread xs false hw.2 hb.2 hz.2]
theorem dictBytes_reread : (xs : List (Bytes × J)) → (b : Bool) → J.WFf xs →
    J.FloatsSatf (fun _ bit => bit ≠ 32) xs →
    J.FloatsSatf (fun x _ => NotNegZero x) xs → J.dictBytes (J.rereadf xs) b = J.dictBytes xs b
  | [], _, _, _, _ => rfl
  | (k, x) :: xs, b, hw, hb, hz => by
      rw [J.rereadf, J.dictBytes, J.dictBytes, toBytes_reread x hw.1 hb.1 hz.1,
        dictBytes_reread xs false hw.2 hb.2 hz.2]
end

end Jsonutils
