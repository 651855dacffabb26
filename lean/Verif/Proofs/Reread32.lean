import Verif.Proofs.Float32
import Verif.Proofs.Reread

/-! Documents with floats of either width are written the same after reading. -/

namespace Jsonutils

theorem roundPos32_zero (d : Nat) : roundPos f32 0 d = some (0, 0) := by
  have : roundPos f32 0 d = roundPos f32 0 1 := by
    unfold roundPos roundDiv; simp
  rw [this]; decide +kernel

theorem int_text_signed (neg : Bool) {c : Nat} {k n : Int} (hc : 0 < c) (h : parseInt (signBytes neg ++ decText c k) = some n) :
    intDec n = signBytes neg ++ decText c k := by
  obtain ⟨hk, hn, _⟩ := parseInt_signed neg c k n h
  rw [decText_int c k hk (.inl hc)]
  have hN : 0 < c * 10 ^ k.toNat := Nat.mul_pos hc (Nat.pow_pos (by decide))
  generalize c * 10 ^ k.toNat = N at hn hN
  cases neg with
  | false => simp at hn; subst hn; simp [signBytes, intDec]
  | true => simp at hn; subst hn; simp [signBytes, intDec]; omega

/-- The text of a `float32`, read and written again. -/
theorem float32_stays (x : GoFloat) (hs : x.IsSingle) (hz : NotNegZero x) :
    (numberOf (formatFloat x 32)).toBytes = formatFloat x 32 := by
  cases x with
  | nan =>
    have h1 : parseInt (formatFloat .nan 32) = none := by decide
    have h2 : parseFloat (formatFloat .nan 32) = some .nan := by decide
    unfold numberOf
    rw [h1]; simp only [h2]; rfl
  | inf neg =>
    have h1 : parseInt (formatFloat (.inf neg) 32) = none := by cases neg <;> decide
    have h2 : parseFloat (formatFloat (.inf neg) 32) = some (.inf neg) := by cases neg <;> decide
    unfold numberOf
    rw [h1]; simp only [h2]; rfl
  | fin neg m e =>
    obtain ⟨m', e', hc, hv⟩ := hs
    rcases Nat.eq_zero_or_pos m' with h0 | hm
    · subst h0
      have hm0 : m = 0 := by
        rw [Nat.zero_mul, Nat.zero_mul] at hv
        rcases Nat.mul_eq_zero.1 hv with h | h
        · rcases Nat.mul_eq_zero.1 h with h | h
          · exact h
          · exact absurd h (Nat.ne_of_gt (Nat.pow_pos (by decide)))
        · exact absurd h (Nat.ne_of_gt (Nat.pow_pos (by decide)))
      subst hm0
      cases neg with
      | true => exact absurd hz (by simp [NotNegZero])
      | false =>
        have ht : formatFloat (.fin false 0 e) 32 = [48] := by
          unfold formatFloat
          simp only [if_true, Nat.zero_mul]
          rw [roundPos32_zero]
          rfl
        rw [ht]; rfl
    · have hr := roundPos_exact f32 m' e' (m * 2 ^ e) (2 ^ f64.bias) (by decide) hc hm (Nat.pow_pos (by decide)) hv
      have hs := shortest_shortest (f := f32) (by decide) hc hm
      obtain ⟨c, k, h1, h2, _⟩ := fmtMag_decText f32 m' e'
      rw [← h2 hm] at hs
      simp only at hs
      have ht : formatFloat (.fin neg m e) 32 = signBytes neg ++ decText c k := by
        unfold formatFloat
        simp only [if_true]
        rw [hr]
        simp only [h1]
      rw [ht]
      have hcpos := reads_pos hs.reads hm
      unfold numberOf
      cases hi : parseInt (signBytes neg ++ decText c k) with
      | some n =>
        simp only
        rw [J.toBytes]
        exact int_text_signed neg hcpos hi
      | none =>
        obtain ⟨m2, e2, h3, h4, h5⟩ := shortest32_64 hs hm
        have hrt : roundsTo f64 c k m2 e2 = true := by
          rw [roundsTo_iff (by decide)]
          exact (roundPos_iff (by decide) (ten_pos _)).1 h3
        obtain ⟨d, t, h6, h7⟩ := decText_head c k
        have hp : parseFloat (signBytes neg ++ decText c k) = some (.fin neg m2 e2) := by
          rw [parseFloat_digits neg _ d t h6 h7 (decText_chars c k)]
          exact parseNum_decText neg _ c k m2 e2 hrt
        simp only [hp]
        rw [J.toBytes]
        have hb : floatBits 0 = 64 := rfl
        rw [hb]
        unfold formatFloat
        simp only [show ¬ (64 : Nat) = 32 by decide, if_false]
        unfold fmtMag
        rw [if_neg (by omega), h5]

theorem float_stays (x : GoFloat) (bit : Nat) (hx : x.Canonical) (hs : bit = 32 → x.IsSingle) (hz : NotNegZero x) :
    (numberOf (formatFloat x (floatBits bit))).toBytes = formatFloat x (floatBits bit) := by
  by_cases hb : bit = 32
  · subst hb
    exact float32_stays x (hs rfl) hz
  · rw [floatBits_wide hb]
    rcases numberOf_float64 x hx with h | ⟨n, h, hp⟩
    · rw [h, J.toBytes]; rfl
    · rw [h, J.toBytes, int_text_reprint x hx hz n hp]

mutual
/-- Reading does not change the text, whatever the widths of the floats. -/
theorem toBytes_stays : (v : J) → v.WF → v.Narrow → v.FloatsSat (fun x _ => NotNegZero x) → v.reread.toBytes = v.toBytes
  | .null, _, _, _ => rfl
  | .bool _, _, _, _ => rfl
  | .int _, _, _, _ => rfl
  | .str _, _, _, _ => rfl
  | .ptr _, _, _, _ => rfl
  | .float x b, hw, hb, hz => by
      rw [J.reread, J.toBytes]
      exact float_stays x b hw hb hz
  | .arr xs, hw, hb, hz => by rw [J.reread, J.toBytes, J.toBytes, arrBytes_stays xs true hw hb hz]
  | .dict id kvs, hw, hb, hz => by
      rw [J.reread, J.toBytes, J.toBytes, dictBytes_stays kvs false hw.2 hb hz,
        dictBytes_stays kvs true hw.2 hb hz]
      by_cases h : 0 < id <;> simp [h]
theorem arrBytes_stays : (xs : List J) → (b : Bool) → J.WFs xs → J.FloatsSats (fun x bit => bit = 32 → x.IsSingle) xs →
    J.FloatsSats (fun x _ => NotNegZero x) xs → J.arrBytes (J.rereads xs) b = J.arrBytes xs b
  | [], _, _, _, _ => rfl
  | x :: xs, b, hw, hb, hz => by
      rw [J.rereads, J.arrBytes, J.arrBytes, toBytes_stays x hw.1 hb.1 hz.1,
        arrBytes_stays xs false hw.2 hb.2 hz.2]
theorem dictBytes_stays : (xs : List (Bytes × J)) → (b : Bool) → J.WFf xs →
    J.FloatsSatf (fun x bit => bit = 32 → x.IsSingle) xs →
    J.FloatsSatf (fun x _ => NotNegZero x) xs → J.dictBytes (J.rereadf xs) b = J.dictBytes xs b
  | [], _, _, _, _ => rfl
  | (k, x) :: xs, b, hw, hb, hz => by
      rw [J.rereadf, J.dictBytes, J.dictBytes, toBytes_stays x hw.1 hb.1 hz.1,
        dictBytes_stays xs false hw.2 hb.2 hz.2]
end

/-- Negative zero loses its sign. -/
theorem negZero_shrinks (e bit : Nat) (hx : (GoFloat.fin true 0 e).Canonical) :
    (numberOf (formatFloat (.fin true 0 e) (floatBits bit))).toBytes = [48] ∧ formatFloat (.fin true 0 e) (floatBits bit) = [45, 48] := by
  have ht : formatFloat (.fin true 0 e) (floatBits bit) = [45, 48] := by
    unfold formatFloat
    simp only [Nat.zero_mul]
    split
    · rw [roundPos32_zero]; rfl
    · rfl
  rw [ht]
  exact ⟨rfl, rfl⟩

theorem float_shrinks (x : GoFloat) (bit : Nat) (hx : x.Canonical) (hs : bit = 32 → x.IsSingle) :
    (numberOf (formatFloat x (floatBits bit))).toBytes.length ≤ (formatFloat x (floatBits bit)).length ∧
    ((numberOf (formatFloat x (floatBits bit))).toBytes.length = (formatFloat x (floatBits bit)).length → NotNegZero x) := by
  by_cases hz : NotNegZero x
  · rw [float_stays x bit hx hs hz]
    exact ⟨Nat.le_refl _, fun _ => hz⟩
  · cases x with
    | nan => exact absurd trivial hz
    | inf n => exact absurd trivial hz
    | fin neg m e =>
      cases neg with
      | false => exact absurd trivial hz
      | true => cases m with
        | succ m => exact absurd trivial hz
        | zero =>
          obtain ⟨h1, h2⟩ := negZero_shrinks e bit hx
          rw [h1, h2]
          exact ⟨by decide, fun h => absurd h (by decide)⟩

mutual
theorem toBytes_shrinks : (v : J) → v.WF → v.Narrow →
    v.reread.toBytes.length ≤ v.toBytes.length ∧ (v.reread.toBytes.length = v.toBytes.length → v.FloatsSat fun x _ => NotNegZero x)
  | .null, _, _ => ⟨Nat.le_refl _, fun _ => trivial⟩
  | .bool _, _, _ => ⟨Nat.le_refl _, fun _ => trivial⟩
  | .int _, _, _ => ⟨Nat.le_refl _, fun _ => trivial⟩
  | .str _, _, _ => ⟨Nat.le_refl _, fun _ => trivial⟩
  | .ptr _, _, _ => ⟨Nat.le_refl _, fun _ => trivial⟩
  | .float x b, hw, hb => by
      rw [J.reread, J.toBytes]
      exact float_shrinks x b hw hb
  | .arr xs, hw, hb => by
      have := arrBytes_shrinks xs true hw hb
      rw [J.reread, J.toBytes, J.toBytes]
      simp only [List.length_append, List.length_cons, J.FloatsSat] at this ⊢
      exact ⟨by omega, fun h => this.2 (by omega)⟩
  | .dict id kvs, hw, hb => by
      have h1 := dictBytes_shrinks kvs true hw.2 hb
      have h2 := dictBytes_shrinks kvs false hw.2 hb
      rw [J.reread, J.toBytes, J.toBytes]
      by_cases h : 0 < id
      · simp only [h, if_true, List.length_append, List.length_cons, J.FloatsSat] at h1 h2 ⊢
        exact ⟨by omega, fun h => h2.2 (by omega)⟩
      · simp only [h, if_false, Int.lt_irrefl, List.length_append, List.length_cons, J.FloatsSat] at h1 h2 ⊢
        exact ⟨by omega, fun h => h1.2 (by omega)⟩
theorem arrBytes_shrinks : (xs : List J) → (b : Bool) → J.WFs xs → J.FloatsSats (fun x bit => bit = 32 → x.IsSingle) xs →
    (J.arrBytes (J.rereads xs) b).length ≤ (J.arrBytes xs b).length ∧
    ((J.arrBytes (J.rereads xs) b).length = (J.arrBytes xs b).length → J.FloatsSats (fun x _ => NotNegZero x) xs)
  | [], _, _, _ => ⟨Nat.le_refl _, fun _ => trivial⟩
  | x :: xs, b, hw, hb => by
      have h1 := toBytes_shrinks x hw.1 hb.1
      have h2 := arrBytes_shrinks xs false hw.2 hb.2
      rw [J.rereads, J.arrBytes, J.arrBytes]
      simp only [List.length_append, J.FloatsSats]
      exact ⟨by omega, fun h => ⟨h1.2 (by omega), h2.2 (by omega)⟩⟩
theorem dictBytes_shrinks : (xs : List (Bytes × J)) → (b : Bool) → J.WFf xs → J.FloatsSatf (fun x bit => bit = 32 → x.IsSingle) xs →
    (J.dictBytes (J.rereadf xs) b).length ≤ (J.dictBytes xs b).length ∧
    ((J.dictBytes (J.rereadf xs) b).length = (J.dictBytes xs b).length → J.FloatsSatf (fun x _ => NotNegZero x) xs)
  | [], _, _, _ => ⟨Nat.le_refl _, fun _ => trivial⟩
  | (k, x) :: xs, b, hw, hb => by
      have h1 := toBytes_shrinks x hw.1 hb.1
      have h2 := dictBytes_shrinks xs false hw.2 hb.2
      rw [J.rereadf, J.dictBytes, J.dictBytes]
      simp only [List.length_append, List.length_cons, J.FloatsSatf]
      exact ⟨by omega, fun h => ⟨h1.2 (by omega), h2.2 (by omega)⟩⟩
end

/-- Reading does not change the text exactly if there is no negative zero. -/
theorem toBytes_stays_iff (v : J) (hw : v.WF) (hn : v.Narrow) : v.reread.toBytes = v.toBytes ↔ v.FloatsSat fun x _ => NotNegZero x :=
  ⟨fun h => (toBytes_shrinks v hw hn).2 (by rw [h]), toBytes_stays v hw hn⟩

mutual
theorem floatsSat_weaken {P Q : GoFloat → Nat → Prop} (h : ∀ x b, P x b → Q x b) : (v : J) → v.FloatsSat P → v.FloatsSat Q
  | .null, _ => trivial
  | .bool _, _ => trivial
  | .int _, _ => trivial
  | .str _, _ => trivial
  | .ptr _, _ => trivial
  | .float x b, hv => h x b hv
  | .arr xs, hv => floatsSats_weaken h xs hv
  | .dict _ kvs, hv => floatsSatf_weaken h kvs hv
theorem floatsSats_weaken {P Q : GoFloat → Nat → Prop} (h : ∀ x b, P x b → Q x b) : (v : List J) → J.FloatsSats P v → J.FloatsSats Q v
  | [], _ => trivial
  | x :: xs, hv => ⟨floatsSat_weaken h x hv.1, floatsSats_weaken h xs hv.2⟩
theorem floatsSatf_weaken {P Q : GoFloat → Nat → Prop} (h : ∀ x b, P x b → Q x b) : (v : List (Bytes × J)) → J.FloatsSatf P v → J.FloatsSatf Q v
  | [], _ => trivial
  | (_, x) :: xs, hv => ⟨floatsSat_weaken h x hv.1, floatsSatf_weaken h xs hv.2⟩
end

/-- Documents without 32-bit floats. -/
theorem narrow_of_wide {v : J} (h : v.Wide) : v.Narrow := floatsSat_weaken (fun _ _ h1 h2 => absurd h2 h1) v h

end Jsonutils
