import Verif.Spec.Numeral
import Verif.Proofs.FloatText
import Verif.Proofs.Text

/-! The reading of floating point numerals. -/

namespace Jsonutils
namespace Numeral

/-! ### digits -/

theorem digitIn_false (c : UInt8) : DigitIn false c ↔ isDigit c = true := by
  rw [isDigit_iff]; simp [DigitIn]

abbrev radix (hex : Bool) : Nat := if hex then 16 else 10

theorem u8le (a b : UInt8) : a ≤ b ↔ a.toNat ≤ b.toNat := Iff.rfl

theorem digitVal_some {hex : Bool} {c : UInt8} (h : DigitIn hex c) : digitValBase (radix hex) c = some (digitWorth c) := by
  have := c.toNat_lt
  cases hex with
  | false =>
    have h' := (digitIn_false c).1 h
    have h2 := (isDigit_iff c).1 h'
    simp [digitValBase, h', digitWorth, h2.2]
  | true =>
    simp only [digitValBase, radix, if_true, hexDigitVal, digitWorth, Bool.and_eq_true, decide_eq_true_eq, u8le]
    simp only [DigitIn, true_and] at h
    change _ = _
    have e1 : (48 : UInt8).toNat = 48 := rfl
    have e2 : (57 : UInt8).toNat = 57 := rfl
    have e3 : (97 : UInt8).toNat = 97 := rfl
    have e4 : (102 : UInt8).toNat = 102 := rfl
    have e5 : (65 : UInt8).toNat = 65 := rfl
    have e6 : (70 : UInt8).toNat = 70 := rfl
    rw [e1, e2, e3, e4, e5, e6]
    repeat' split
    all_goals first | rfl | omega | (exfalso; omega)

theorem digitVal_none {hex : Bool} {c : UInt8} (h : ¬ DigitIn hex c) : digitValBase (radix hex) c = none := by
  cases hex with
  | false =>
    have h' := mt (digitIn_false c).2 h
    simp [digitValBase, h']
  | true =>
    simp only [digitValBase, radix, if_true, hexDigitVal, Bool.and_eq_true, decide_eq_true_eq, u8le]
    simp only [DigitIn, true_and] at h
    have e1 : (48 : UInt8).toNat = 48 := rfl
    have e2 : (57 : UInt8).toNat = 57 := rfl
    have e3 : (97 : UInt8).toNat = 97 := rfl
    have e4 : (102 : UInt8).toNat = 102 := rfl
    have e5 : (65 : UInt8).toNat = 65 := rfl
    have e6 : (70 : UInt8).toNat = 70 := rfl
    rw [e1, e2, e3, e4, e5, e6]
    repeat' split
    all_goals first | rfl | omega | (exfalso; omega)

instance (hex : Bool) (c : UInt8) : Decidable (DigitIn hex c) := by unfold DigitIn; infer_instance

theorem digit_ne {hex : Bool} {c d : UInt8} (h : DigitIn hex c) (hd : ¬ DigitIn hex d) : c ≠ d := by
  rintro rfl; exact hd h

theorem no95 (hex : Bool) : ¬ DigitIn hex 95 := by cases hex <;> decide
theorem no46 (hex : Bool) : ¬ DigitIn hex 46 := by cases hex <;> decide

/-! ### the mantissa -/

theorem scan_digits (hex : Bool) (ds t : Bytes) (st : MantScan) (h : ∀ c ∈ ds, DigitIn hex c) :
    scanMant (radix hex) (ds ++ t) st =
      scanMant (radix hex) t
        { st with
          mant := ds.foldl (fun a c => a * radix hex + digitWorth c) st.mant
          nd := st.nd + ds.length
          frac := if st.sawdot then st.frac + ds.length else st.frac
          sawdigits := st.sawdigits || !ds.isEmpty } := by
  induction ds generalizing st with
  | nil => simp
  | cons c cs ih =>
    have hc := h c (by simp)
    simp only [List.cons_append]
    rw [scanMant]
    rw [if_neg (digit_ne hc (no95 hex)), if_neg (digit_ne hc (no46 hex)), digitVal_some hc]
    simp only
    rw [ih _ (fun d hd => h d (by simp [hd]))]
    congr 1
    simp
    cases st.sawdot <;> simp <;> omega

/-- Nothing more of the mantissa. -/
def Stops (hex : Bool) (dot : Bool) (r : Bytes) : Prop :=
  r = [] ∨ ∃ c t, r = c :: t ∧ c ≠ 95 ∧ ¬ DigitIn hex c ∧ (dot = false → c ≠ 46)

theorem scan_stop {hex : Bool} {r : Bytes} {st : MantScan} (h : Stops hex st.sawdot r) :
    scanMant (radix hex) r st = { st with rest := r } := by
  rcases h with rfl | ⟨c, t, rfl, h1, h2, h3⟩
  · rfl
  · rw [scanMant, if_neg h1]
    by_cases h4 : c = 46
    · rw [if_pos h4]
      have : st.sawdot = true := by
        cases hs : st.sawdot with
        | true => rfl
        | false => exact absurd h4 (h3 hs)
      rw [if_pos this]
    · rw [if_neg h4, digitVal_none h2]

theorem worth_append (b : Nat) (x y : Bytes) : y.foldl (fun a c => a * b + digitWorth c) (worth b x) = worth b (x ++ y) := by
  unfold worth; rw [List.foldl_append]

theorem scan_parts {hex : Bool} {int : Bytes} {frac : Option Bytes} {r : Bytes} (hi : ∀ c ∈ int, DigitIn hex c)
    (hf : ∀ ds, frac = some ds → ∀ c ∈ ds, DigitIn hex c) (hr : Stops hex frac.isSome r) :
    ∃ st, scanMant (radix hex) (int ++ (fracBytes frac ++ r)) ⟨0, 0, 0, false, false, false, []⟩ = st ∧
      st.mant = worth (radix hex) (int ++ frac.getD []) ∧ st.frac = (frac.getD []).length ∧
      st.sawdigits = !(int ++ frac.getD []).isEmpty ∧ st.under = false ∧ st.rest = r := by
  refine ⟨_, rfl, ?_⟩
  rw [scan_digits hex int _ _ hi]
  cases frac with
  | none =>
    simp only [fracBytes, List.nil_append]
    rw [scan_stop (by simpa using hr)]
    simp [worth]
  | some ds =>
    simp only [fracBytes, List.cons_append]
    rw [scanMant, if_neg (by decide), if_pos rfl]
    simp only [Bool.false_eq_true, if_false]
    rw [scan_digits hex ds _ _ (hf ds rfl)]
    rw [scan_stop (by simpa using hr)]
    refine ⟨?_, ?_, ?_, rfl, rfl⟩
    · exact worth_append _ _ _
    · simp
    · simp only [Bool.false_or, Option.getD_some]
      cases int <;> cases ds <;> rfl

theorem digits_prefix (hex : Bool) (s : Bytes) : ∃ ds t, s = ds ++ t ∧ (∀ c ∈ ds, DigitIn hex c) ∧ (t = [] ∨ ∃ c t', t = c :: t' ∧ ¬ DigitIn hex c) := by
  induction s with
  | nil => exact ⟨[], [], rfl, by simp, Or.inl rfl⟩
  | cons c s ih =>
    by_cases hc : DigitIn hex c
    · obtain ⟨ds, t, h1, h2, h3⟩ := ih
      exact ⟨c :: ds, t, by rw [h1]; rfl, by simpa [hc] using h2, h3⟩
    · exact ⟨[], c :: s, rfl, by simp, Or.inr ⟨c, s, rfl, hc⟩⟩

theorem decompose (hex : Bool) (s : Bytes) (hs : 95 ∉ s) : ∃ int frac r, s = int ++ (fracBytes frac ++ r) ∧ (∀ c ∈ int, DigitIn hex c) ∧
    (∀ ds, frac = some ds → ∀ c ∈ ds, DigitIn hex c) ∧ Stops hex frac.isSome r := by
  obtain ⟨ds, t, rfl, h2, h3⟩ := digits_prefix hex s
  rcases h3 with rfl | ⟨c, t', rfl, hc⟩
  · exact ⟨ds, none, [], rfl, h2, by simp, Or.inl rfl⟩
  · by_cases h46 : c = 46
    · subst h46
      obtain ⟨ds', t, rfl, h2', h3⟩ := digits_prefix hex t'
      refine ⟨ds, some ds', t, rfl, h2, by intro _ h; cases h; exact h2', ?_⟩
      rcases h3 with rfl | ⟨c, t', rfl, hc'⟩
      · exact Or.inl rfl
      · exact Or.inr ⟨c, t', rfl, by rintro rfl; simp at hs, hc', by simp⟩
    · exact ⟨ds, none, c :: t', rfl, h2, by simp, Or.inr ⟨c, t', rfl, by rintro rfl; simp at hs, hc, fun _ => h46⟩⟩

/-! ### the exponent -/

theorem scanExp_capped (ds : Bytes) (e : Nat) (u : Bool) (h : ∀ c ∈ ds, DigitIn false c) (he : 10000 ≤ e) : scanExp ds e u = (e, u, []) := by
  induction ds with
  | nil => rfl
  | cons c ds ih =>
    have hc := h c (by simp)
    rw [scanExp, if_neg (digit_ne hc (no95 false)), if_pos ((digitIn_false c).1 hc), if_neg (by omega)]
    exact ih fun d hd => h d (by simp [hd])

theorem worth_digit {c : UInt8} (hc : DigitIn false c) : digitWorth c = c.toNat - 48 ∧ digitWorth c ≤ 9 := by
  have := (isDigit_iff c).1 ((digitIn_false c).1 hc)
  unfold digitWorth
  rw [if_pos this.2]
  exact ⟨rfl, by omega⟩

/-- `k` digits read, of which the first is not 0. -/
theorem scanExp_take (ds : Bytes) (k e : Nat) (u : Bool) (h : ∀ c ∈ ds, DigitIn false c) (hk : 1 ≤ k) (h5 : k ≤ 5)
    (hlo : 10 ^ (k - 1) ≤ e) (hhi : e < 10 ^ k) :
    scanExp ds e u = ((ds.take (5 - k)).foldl (fun a c => a * 10 + digitWorth c) e, u, []) := by
  induction ds generalizing k e with
  | nil => simp [scanExp]
  | cons c ds ih =>
    by_cases hk5 : k = 5
    · subst hk5
      rw [scanExp_capped _ _ _ h (by omega)]
      rfl
    · have hc := h c (by simp)
      obtain ⟨hw, hw9⟩ := worth_digit hc
      have hlt : e < 10000 := by
        have : 10 ^ k ≤ 10 ^ 4 := Nat.pow_le_pow_right (by decide) (by omega)
        omega
      rw [scanExp, if_neg (digit_ne hc (no95 false)), if_pos ((digitIn_false c).1 hc), if_pos hlt, ← hw]
      have hp : 10 ^ k = 10 ^ (k - 1) * 10 := by rw [← Nat.pow_succ]; congr 1; omega
      rw [ih (k + 1) _ (fun d hd => h d (by simp [hd])) (by omega) (by omega) (by rw [Nat.add_sub_cancel]; omega)
        (by rw [Nat.pow_succ]; omega)]
      have : 5 - k = (5 - (k + 1)) + 1 := by omega
      rw [this, List.take_succ_cons, List.foldl_cons]

theorem scanExp_counted (ds : Bytes) (u : Bool) (h : ∀ c ∈ ds, DigitIn false c) : scanExp ds 0 u = (worth 10 (countedDigits ds), u, []) := by
  induction ds with
  | nil => rfl
  | cons c ds ih =>
    have hc := h c (by simp)
    have hrest : ∀ c ∈ ds, DigitIn false c := fun d hd => h d (by simp [hd])
    obtain ⟨hw, hw9⟩ := worth_digit hc
    rw [scanExp, if_neg (digit_ne hc (no95 false)), if_pos ((digitIn_false c).1 hc), if_pos (by omega), ← hw, Nat.zero_mul, Nat.zero_add]
    by_cases h0 : c = 48
    · subst h0
      have : digitWorth 48 = 0 := rfl
      rw [this, ih hrest]
      simp [countedDigits, List.dropWhile]
    · have hd1 : digitWorth c ≠ 0 := by
        rw [hw]
        have := (isDigit_iff c).1 ((digitIn_false c).1 hc)
        have : c.toNat ≠ 48 := fun h => h0 (UInt8.toNat_inj.1 h)
        omega
      rw [scanExp_take ds 1 _ u hrest (by omega) (by omega) (by simp; omega) (by omega)]
      have hcd : countedDigits (c :: ds) = c :: ds.take 4 := by
        have : (c == (48 : UInt8)) = false := by simpa using h0
        simp [countedDigits, List.dropWhile, this]
      rw [hcd]
      simp [worth]

theorem countedDigits_small {ds : Bytes} (hd : ∀ c ∈ ds, DigitIn false c) (h : worth 10 ds < 100000) : worth 10 (countedDigits ds) = worth 10 ds := by
  have hz : worth 10 ds = worth 10 (ds.dropWhile (· == 48)) := by
    clear h hd
    induction ds with
    | nil => rfl
    | cons c ds ih =>
      by_cases h0 : c = 48
      · subst h0
        simp only [List.dropWhile, BEq.rfl]
        rw [← ih]; rfl
      · have : (c == (48 : UInt8)) = false := by simpa using h0
        simp [List.dropWhile, this]
  have hmono : ∀ (l : Bytes) (a : Nat), a * 10 ^ l.length ≤ l.foldl (fun a c => a * 10 + digitWorth c) a := by
    intro l
    induction l with
    | nil => simp
    | cons c l ih =>
      intro a
      refine Nat.le_trans ?_ (ih (a * 10 + digitWorth c))
      rw [List.length_cons, Nat.pow_succ, Nat.add_mul]
      have : a * (10 ^ l.length * 10) = a * 10 * 10 ^ l.length := by rw [Nat.mul_comm (10 ^ l.length) 10, Nat.mul_assoc]
      omega
  have hlen : (ds.dropWhile (· == 48)).length ≤ 5 := by
    rw [hz] at h
    have hne : ∀ c, (ds.dropWhile (· == 48)).head? = some c → c ≠ 48 := by
      intro c hc
      have := List.head?_dropWhile_not (· == (48 : UInt8)) ds
      rw [hc] at this
      simpa using this
    have hd' : ∀ c ∈ ds.dropWhile (· == 48), DigitIn false c := fun c hc => hd c (List.dropWhile_sublist _ |>.subset hc)
    cases hds : ds.dropWhile (· == 48) with
    | nil => simp
    | cons c l =>
      rw [hds] at h hne hd'
      have h1 : digitWorth c ≠ 0 := by
        have hc := hd' c (by simp)
        rw [(worth_digit hc).1]
        have := (isDigit_iff c).1 ((digitIn_false c).1 hc)
        have : c.toNat ≠ 48 := fun h => hne c rfl (UInt8.toNat_inj.1 h)
        omega
      have h2 := hmono l (digitWorth c)
      have h3 : worth 10 (c :: l) = l.foldl (fun a c => a * 10 + digitWorth c) (digitWorth c) := by simp [worth]
      by_cases hl : l.length ≤ 4
      · simpa using hl
      · have h4 : 10 ^ 5 ≤ 10 ^ l.length := Nat.pow_le_pow_right (by decide) (by omega)
        have h5 : 1 * 10 ^ l.length ≤ digitWorth c * 10 ^ l.length := Nat.mul_le_mul_right _ (by omega)
        omega
  unfold countedDigits
  rw [List.take_of_length_le hlen, ← hz]

theorem splitSign_iff (s : Bytes) : ∃ sign, signOk sign ∧ s = sign ++ (splitSign s).2.2 ∧ (splitSign s).1 = (sign == b!"-") ∧
    ((splitSign s).2.1 = false ↔ sign = []) := by
  unfold splitSign
  split
  · exact ⟨b!"+", Or.inr (Or.inl rfl), rfl, rfl, by simp⟩
  · exact ⟨b!"-", Or.inr (Or.inr rfl), rfl, rfl, by simp⟩
  · exact ⟨[], Or.inl rfl, rfl, rfl, by simp⟩

theorem splitSign_append {sign t : Bytes} (h : signOk sign) (ht : ∀ c r, t = c :: r → c ≠ 43 ∧ c ≠ 45) :
    splitSign (sign ++ t) = (sign == b!"-", sign != [], t) := by
  rcases h with rfl | rfl | rfl
  · cases t with
    | nil => rfl
    | cons c r =>
      obtain ⟨h1, h2⟩ := ht c r rfl
      simp only [List.nil_append]
      unfold splitSign
      split
      · rename_i h; cases h; exact absurd rfl h1
      · rename_i h; cases h; exact absurd rfl h2
      · rfl
  · rfl
  · rfl

theorem lower_eq {c k : UInt8} (h1 : 97 ≤ k.toNat) (h2 : k.toNat ≤ 122) : lowerByte c = k ↔ c = k ∨ c.toNat + 32 = k.toNat := by
  have hlt := c.toNat_lt
  unfold lowerByte
  simp only [Bool.and_eq_true, decide_eq_true_eq, u8le]
  have e5 : (65 : UInt8).toNat = 65 := rfl
  have e6 : (90 : UInt8).toNat = 90 := rfl
  rw [e5, e6]
  have e7 : (c + 32).toNat = (c.toNat + 32) % 256 := UInt8.toNat_add c 32
  split
  · rename_i h
    rw [← UInt8.toNat_inj, ← UInt8.toNat_inj, e7]
    omega
  · rename_i h
    rw [← UInt8.toNat_inj]
    omega

theorem letter_iff (hex : Bool) (c : UInt8) :
    lowerByte c = (if hex then 112 else 101) ↔ (if hex then c = 112 ∨ c = 80 else c = 101 ∨ c = 69) := by
  cases hex
  · simp only [Bool.false_eq_true, if_false]
    rw [lower_eq (by decide) (by decide)]
    refine or_congr Iff.rfl ?_
    rw [← UInt8.toNat_inj]
    have e1 : (101 : UInt8).toNat = 101 := rfl
    have e2 : (69 : UInt8).toNat = 69 := rfl
    rw [e1, e2]; omega
  · simp only [if_true]
    rw [lower_eq (by decide) (by decide)]
    refine or_congr Iff.rfl ?_
    rw [← UInt8.toNat_inj]
    have e1 : (112 : UInt8).toNat = 112 := rfl
    have e2 : (80 : UInt8).toNat = 80 := rfl
    rw [e1, e2]; omega

theorem scanExp_all (ds : Bytes) (e : Nat) (u : Bool) (h95 : 95 ∉ ds) (h : (scanExp ds e u).2.2 = []) : ∀ c ∈ ds, DigitIn false c := by
  induction ds generalizing e with
  | nil => simp
  | cons c ds ih =>
    have hc : c ≠ 95 := by rintro rfl; simp at h95
    rw [scanExp, if_neg hc] at h
    by_cases hd : isDigit c = true
    · rw [if_pos hd] at h
      have := ih _ (fun hm => h95 (by simp [hm])) h
      intro x hx
      rcases List.mem_cons.1 hx with rfl | hx
      · exact (digitIn_false x).2 hd
      · exact this x hx
    · rw [if_neg hd] at h; cases h

theorem digit_nosign {c : UInt8} (h : DigitIn false c) : c ≠ 43 ∧ c ≠ 45 := ⟨digit_ne h (by decide), digit_ne h (by decide)⟩

theorem parseExp_iff (hex u : Bool) (r : Bytes) (hr : 95 ∉ r) (v : Int) (u' : Bool) :
    parseExp hex u r = some (v, u') ↔ u' = u ∧ ∃ x : Option Expo, r = expBytes x ∧ (∀ e, x = some e → e.Ok hex) ∧ (hex = true → x ≠ none) ∧
      v = (match x with | none => 0 | some e => e.value) := by
  constructor
  · intro h
    cases r with
    | nil =>
      rw [parseExp] at h
      cases hex with
      | true => simp at h
      | false =>
        simp only [Bool.false_eq_true, if_false, Option.some.injEq, Prod.mk.injEq] at h
        exact ⟨h.2.symm, none, rfl, by simp, by simp, h.1.symm⟩
    | cons c r =>
      rw [parseExp] at h
      by_cases hl : lowerByte c = (if hex then 112 else 101)
      · rw [if_pos hl] at h
        obtain ⟨sign, hs1, hs2, hs3, _⟩ := splitSign_iff r
        simp only at h
        split at h
        · cases h
        · rename_i d ds hds
          split at h
          · rename_i hd
            split at h
            · rename_i hemp
              have h95 : (95 : UInt8) ∉ d :: ds := by
                intro hm; apply hr; rw [hs2, hds]; simp only [List.mem_cons, List.mem_append]; right; right; simpa using hm
              have hall := scanExp_all (d :: ds) 0 u h95 (by simpa using hemp)
              rw [scanExp_counted _ _ hall] at h
              simp only [Option.some.injEq, Prod.mk.injEq] at h
              refine ⟨h.2.symm, some ⟨c, sign, d :: ds⟩, ?_, ?_, by simp, ?_⟩
              · simp only [expBytes, Expo.text]; rw [← hds, ← hs2]
              · intro e he; cases he
                exact ⟨(letter_iff hex c).1 hl, hs1, hall, by simp⟩
              · rw [← h.1, hs3]; simp [Expo.value]
            · cases h
          · cases h
      · rw [if_neg hl] at h; cases h
  · rintro ⟨rfl, x, rfl, hx, hm, rfl⟩
    cases x with
    | none =>
      cases hex with
      | true => exact absurd rfl (hm rfl)
      | false => rfl
    | some e =>
      have he := hx e rfl
      obtain ⟨d, ds, hds⟩ := List.exists_cons_of_ne_nil he.nonempty
      simp only [expBytes, Expo.text]
      rw [parseExp, if_pos ((letter_iff hex _).2 he.letter)]
      rw [splitSign_append he.sign (by
        intro c r hcr; exact digit_nosign (he.digits c (by rw [hcr]; simp)))]
      simp only [hds]
      rw [if_pos ((digitIn_false d).1 (he.digits d (by rw [hds]; simp)))]
      rw [← hds, scanExp_counted _ _ he.digits]
      simp [Expo.value]

/-! ### numerals without underscores -/

theorem round_iff {hex neg : Bool} {c : Nat} {k : Int} {x : GoFloat} :
    (let b := if hex then 2 else 10
     if 0 ≤ k then mkFloat neg (c * b ^ k.toNat) 1 else mkFloat neg c (b ^ (-k).toNat)) = some x ↔
      ∃ m e, x = .fin neg m e ∧ NearestEven f64 (c * (if hex then 2 else 10) ^ k.toNat) ((if hex then 2 else 10) ^ (-k).toNat) m e ∧
        ¬ TooBig f64 (c * (if hex then 2 else 10) ^ k.toNat) ((if hex then 2 else 10) ^ (-k).toNat) := by
  have hp : 2 ≤ f64.prec := by decide
  have hb : 0 < (if hex = true then 2 else 10) := by cases hex <;> decide
  generalize hB : (if hex = true then 2 else 10) = b at *
  have key : (if 0 ≤ k then mkFloat neg (c * b ^ k.toNat) 1 else mkFloat neg c (b ^ (-k).toNat)) =
      mkFloat neg (c * b ^ k.toNat) (b ^ (-k).toNat) := by
    split
    · rename_i h
      have : (-k).toNat = 0 := by omega
      rw [this, Nat.pow_zero]
    · rename_i h
      have : k.toNat = 0 := by omega
      rw [this, Nat.pow_zero, Nat.mul_one]
  simp only
  rw [key]
  have he : ∀ num den, mkFloat neg num den = Option.map (fun p => GoFloat.fin neg p.1 p.2) (roundPos f64 num den) := fun _ _ => rfl
  rw [he, Option.map_eq_some_iff]
  constructor
  · rintro ⟨⟨m, e⟩, h1, h2⟩
    exact ⟨m, e, h2.symm, (roundPos_iff hp (Nat.pow_pos hb)).1 h1⟩
  · rintro ⟨m, e, h1, h2⟩
    exact ⟨(m, e), (roundPos_iff hp (Nat.pow_pos hb)).2 h2, h1.symm⟩

theorem exp_stops {hex dot : Bool} {x : Option Expo} (h : ∀ e, x = some e → e.Ok hex) : Stops hex dot (expBytes x) := by
  cases x with
  | none => exact Or.inl rfl
  | some e =>
    refine Or.inr ⟨e.letter, _, rfl, ?_⟩
    have := (h e rfl).letter
    cases hex with
    | true => rcases this with h | h <;> rw [h] <;> exact ⟨by decide, by decide, fun _ => by decide⟩
    | false => rcases this with h | h <;> rw [h] <;> exact ⟨by decide, by decide, fun _ => by decide⟩

/-- What parseNum makes of the part behind sign and prefix, if there are no underscores. -/
theorem parseNum_iff (neg hex : Bool) (s d : Bytes) (hd : 95 ∉ d) (x : GoFloat) :
    parseNum neg hex s d = some x ↔ ∃ (int : Bytes) (frac : Option Bytes) (exp : Option Expo) (n : Parts), n = ⟨if neg then b!"-" else [], if hex then b!"0x" else [], int, frac, exp⟩ ∧
      d = int ++ (fracBytes frac ++ expBytes exp) ∧ n.Ok hex ∧
      ∃ m e, x = .fin neg m e ∧ NearestEven f64 (n.num hex) (n.den hex) m e ∧ ¬ TooBig f64 (n.num hex) (n.den hex) := by
  have hsg : signOk (if neg then b!"-" else []) := by cases neg <;> simp [signOk]
  have hpre : if hex then (if hex then b!"0x" else []) = b!"0x" ∨ (if hex then b!"0x" else []) = b!"0X" else (if hex then b!"0x" else []) = [] := by
    cases hex <;> simp
  constructor
  · intro h
    obtain ⟨int, frac, r, hdd, hi, hf, hr⟩ := decompose hex d hd
    obtain ⟨st, hst, h1, h2, h3, h4, h5⟩ := scan_parts hi hf hr
    rw [← hdd] at hst
    unfold parseNum at h
    simp only at h
    change (if (scanMant (radix hex) d _).sawdigits = true then _ else _) = _ at h
    rw [hst, h3, h4, h5] at h
    split at h
    · rename_i hne
      split at h
      · cases h
      · rename_i e u hpe
        obtain ⟨rfl, x', hx1, hx2, hx3, hx4⟩ := (parseExp_iff hex false r (by rw [hdd] at hd; simp at hd; exact hd.2.2) e u).1 hpe
        simp only [Bool.false_and, Bool.false_eq_true, if_false] at h
        rw [h1, h2] at h
        obtain ⟨m, e', hx, hn⟩ := round_iff.1 h
        refine ⟨int, frac, x', _, rfl, by rw [hdd, hx1], ⟨hsg, hpre, hi, hf, by intro h0; simp [h0] at hne, hx2, hx3⟩, m, e', hx, ?_⟩
        rw [hx4] at hn
        exact hn
    · cases h
  · rintro ⟨int, frac, exp, n, hn, rfl, hok, m, e, rfl, hnear⟩
    subst hn
    obtain ⟨st, hst, h1, h2, h3, h4, h5⟩ := scan_parts hok.int hok.frac (exp_stops (dot := frac.isSome) hok.exp)
    unfold parseNum
    simp only
    change (if (scanMant (radix hex) _ _).sawdigits = true then _ else _) = _
    rw [hst, h3, h4, h5]
    have hne : (!(int ++ frac.getD []).isEmpty) = true := by
      have := hok.nonempty
      simp only at this
      cases hq : int ++ frac.getD [] with
      | nil => exact absurd hq this
      | cons _ _ => rfl
    rw [if_pos hne]
    have hpe := (parseExp_iff hex false (expBytes exp) (by simp at hd; exact hd.2.2) _ false).2 ⟨rfl, exp, rfl, hok.exp, hok.must, rfl⟩
    rw [hpe]
    simp only [Bool.false_and, Bool.false_eq_true, if_false]
    rw [h1, h2]
    exact round_iff.2 ⟨m, e, rfl, hnear⟩

end Numeral
end Jsonutils
