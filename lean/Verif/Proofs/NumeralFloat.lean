import Verif.Proofs.NumeralUnder

/-! `strconv.ParseFloat` reads exactly the texts of `Spec/Numeral`. -/

namespace Jsonutils
namespace Numeral

theorem sep_iff {hex : Bool} {p r : Bytes} {i : UInt8} (hp : 95 ∉ p) (h95 : i ≠ 95) (hi : MayFollow hex p ↔ i = 48)
    (hno : ∀ a, a ≠ [] → (MayFollow hex (p ++ a) ↔ ∃ a' c, a = a' ++ [c] ∧ DigitIn hex c)) :
    Separates hex (p ++ r) ↔ underscoreLoop hex r i = true := by
  rw [loop_iff]
  constructor
  · intro h
    refine ⟨fun h => absurd h h95, ?_⟩
    intro a b e
    obtain ⟨h1, h2⟩ := h (p ++ a) b (by rw [e]; simp)
    refine ⟨?_, h2⟩
    by_cases ha : a = []
    · subst ha
      rw [List.append_nil] at h1
      exact Or.inl ⟨rfl, hi.1 h1⟩
    · exact Or.inr ((hno a ha).1 h1)
  · rintro ⟨_, h⟩ a b e
    obtain ⟨a', rfl, e'⟩ : ∃ a', a = p ++ a' ∧ r = a' ++ 95 :: b := by
      rcases List.append_eq_append_iff.1 e with ⟨a', h1, h2⟩ | ⟨c', h1, h2⟩
      · exact ⟨a', h1, h2⟩
      · cases c' with
        | nil => exact ⟨[], by simpa using h1.symm, by simpa using h2.symm⟩
        | cons y c' =>
          have : y = 95 := (List.cons.inj h2).1.symm
          subst this
          exact absurd (by rw [h1]; simp) hp
    obtain ⟨h1, h2⟩ := h a' b e'
    refine ⟨?_, h2⟩
    rcases h1 with ⟨rfl, h1⟩ | h1
    · rw [List.append_nil]; exact hi.2 h1
    · have : a' ≠ [] := by obtain ⟨x, c, h1, _⟩ := h1; rw [h1]; simp
      exact (hno a' this).2 h1

theorem last_digit {hex : Bool} {p a : Bytes} (ha : a ≠ []) : (∃ a' c, p ++ a = a' ++ [c] ∧ DigitIn hex c) ↔ ∃ a' c, a = a' ++ [c] ∧ DigitIn hex c := by
  constructor
  · rintro ⟨a', c, h1, h2⟩
    refine ⟨a.dropLast, a.getLast ha, (List.dropLast_concat_getLast ha).symm, ?_⟩
    rw [← List.dropLast_concat_getLast ha, ← List.append_assoc] at h1
    have := (List.append_inj' h1 rfl).2
    simp only [List.cons.injEq, and_true] at this
    rw [this]; exact h2
  · rintro ⟨a', c, rfl, h2⟩
    exact ⟨p ++ a', c, by simp, h2⟩

theorem sep_hex {sign r : Bytes} {c : UInt8} (hs : signOk sign) (hc : c = 120 ∨ c = 88) :
    Separates true (sign ++ 48 :: c :: r) ↔ underscoreLoop true r 48 = true := by
  have e : sign ++ 48 :: c :: r = (sign ++ [48, c]) ++ r := by simp
  rw [e]
  apply sep_iff
  · rcases hs with rfl | rfl | rfl <;> rcases hc with rfl | rfl <;> decide
  · decide
  · simp only [iff_true]
    right
    refine ⟨rfl, sign, hs, ?_⟩
    rcases hc with rfl | rfl
    · exact Or.inl rfl
    · exact Or.inr rfl
  · intro a ha
    unfold MayFollow
    rw [last_digit ha]
    constructor
    · rintro (h | ⟨_, sign', hs', h⟩)
      · exact h
      · exfalso
        obtain ⟨y, a, rfl⟩ := List.exists_cons_of_ne_nil ha
        rcases hs with rfl | rfl | rfl <;> rcases hs' with rfl | rfl | rfl <;> simp at h
    · exact Or.inl

theorem sep_dec {sign w : Bytes} (hs : signOk sign) : Separates false (sign ++ w) ↔ underscoreLoop false w 94 = true := by
  apply sep_iff
  · rcases hs with rfl | rfl | rfl <;> decide
  · decide
  · constructor
    · rintro (⟨a, c, h, hd⟩ | ⟨h, _⟩)
      · exfalso
        rcases hs with rfl | rfl | rfl
        · simp at h
        · have := (List.append_inj' (s₁ := []) h rfl).2
          simp only [List.cons.injEq, and_true] at this
          rw [← this] at hd; revert hd; decide
        · have := (List.append_inj' (s₁ := []) h rfl).2
          simp only [List.cons.injEq, and_true] at this
          rw [← this] at hd; revert hd; decide
      · cases h
    · intro h; exact absurd h (by decide)
  · intro a ha
    unfold MayFollow
    rw [last_digit ha]
    simp

/-- underscoreOK behind the sign. -/
def uCore (s : Bytes) : Bool :=
  match s with
  | 48 :: c :: r =>
    if lowerByte c = 120 then underscoreLoop true r 48
    else if lowerByte c = 98 || lowerByte c = 111 then underscoreLoop false r 48
    else underscoreLoop false s 94
  | _ => underscoreLoop false s 94

theorem underscoreOK_core (s : Bytes) : underscoreOK s = uCore (splitSign s).2.2 := by
  unfold underscoreOK splitSign
  split <;> rfl

theorem raw_bad {c : UInt8} {r : Bytes} (h : lowerByte c = 120 ∨ lowerByte c = 98 ∨ lowerByte c = 111) : raw false (48 :: c :: r) = none := by
  have h1 : ¬ DigitIn false c ∧ c ≠ 95 ∧ c ≠ 46 := by
    refine ⟨?_, ?_, ?_⟩
    · intro hd
      rw [lowerByte_digit ((digitIn_false c).1 hd)] at h
      rcases h with rfl | rfl | rfl <;> revert hd <;> decide
    · rintro rfl; revert h; decide
    · rintro rfl; revert h; decide
  have h2 : lowerByte c ≠ 101 := by
    rcases h with h | h | h <;> rw [h] <;> decide
  unfold raw
  simp only
  have e : scanMant (radix false) (48 :: c :: r) ⟨0, 0, 0, false, false, false, []⟩ = ⟨0, 1, 0, false, true, false, c :: r⟩ := by
    rw [scanMant, if_neg (by decide), if_neg (by decide), digitVal_some (by decide)]
    simp only
    rw [scan_stop (Or.inr ⟨c, r, rfl, h1.2.1, h1.1, fun _ => h1.2.2⟩)]
    rfl
  rw [e]
  simp only [if_true]
  rw [parseExp, if_neg (by simpa using h2)]
  rfl

theorem uCore_dec {w : Bytes} (h : ∀ c r, w = 48 :: c :: r → ¬ (lowerByte c = 120 ∨ lowerByte c = 98 ∨ lowerByte c = 111)) :
    uCore w = underscoreLoop false w 94 := by
  unfold uCore
  split
  · rename_i c r
    have := h c r rfl
    rw [if_neg (fun h => this (Or.inl h)), if_neg]
    intro h
    simp only [Bool.or_eq_true, decide_eq_true_eq] at h
    exact this (Or.inr h)
  · rfl

theorem lower_x {c : UInt8} : lowerByte c = 120 ↔ c = 120 ∨ c = 88 := by
  rw [lower_eq (by decide) (by decide)]
  refine or_congr Iff.rfl ?_
  rw [← UInt8.toNat_inj]
  have e1 : (120 : UInt8).toNat = 120 := rfl
  have e2 : (88 : UInt8).toNat = 88 := rfl
  rw [e1, e2]; omega

/-- Hexadecimal numerals. -/
theorem under_hex {neg : Bool} {sign r : Bytes} {c : UInt8} {x : GoFloat} (hs : signOk sign) (hc : c = 120 ∨ c = 88)
    (hsp : (splitSign (sign ++ 48 :: c :: r)).2.2 = 48 :: c :: r) :
    parseNum neg true (sign ++ 48 :: c :: r) r = some x ↔
      Separates true (sign ++ 48 :: c :: r) ∧ parseNum neg true (sign ++ 48 :: c :: r) (strip r) = some x := by
  have hu : underscoreOK (sign ++ 48 :: c :: r) = underscoreLoop true r 48 := by
    rw [underscoreOK_core, hsp]
    unfold uCore
    simp only
    rw [if_pos (lower_x.2 hc)]
  refine parseNum_under (p := sign ++ [48, c]) (by simp) ?_ ?_ ?_
  · rcases hs with rfl | rfl | rfl <;> rcases hc with rfl | rfl <;> decide
  · intro _ _ _ _ h
    exact (sep_hex hs hc).2 (hu ▸ h)
  · intro _ h _
    rw [hu]; exact (sep_hex hs hc).1 h

/-- Decimal numerals. -/
theorem under_dec {neg : Bool} {sign w : Bytes} {x : GoFloat} (hs : signOk sign) (hsp : (splitSign (sign ++ w)).2.2 = w) :
    parseNum neg false (sign ++ w) w = some x ↔ Separates false (sign ++ w) ∧ parseNum neg false (sign ++ w) (strip w) = some x := by
  have hu : raw false w ≠ none ∨ raw false (strip w) ≠ none → underscoreOK (sign ++ w) = underscoreLoop false w 94 := by
    intro h
    rw [underscoreOK_core, hsp]
    apply uCore_dec
    rintro c r rfl hc
    have h95 : c ≠ 95 := by rintro rfl; revert hc; decide
    rcases h with h | h
    · exact h (raw_bad hc)
    · apply h
      rw [strip_cons_ne (by decide), strip_cons_ne h95]
      exact raw_bad hc
  refine parseNum_under rfl ?_ ?_ ?_
  · rcases hs with rfl | rfl | rfl <;> decide
  · intro m f e hr h
    rw [hu (Or.inl (by rw [hr]; simp))] at h
    exact (sep_dec hs).2 h
  · intro _ h hr
    rw [hu (Or.inr hr)]
    exact (sep_dec hs).1 h

theorem raw_of_parse {neg hex : Bool} {s d : Bytes} {x : GoFloat} (h : parseNum neg hex s d = some x) : raw hex d ≠ none := by
  rw [parseNum_raw] at h
  intro h0
  rw [h0] at h; cases h

theorem lowerBytes_head {c d : UInt8} {t r : Bytes} (h : lowerBytes (c :: t) = d :: r) : lowerByte c = d := by
  simp only [lowerBytes, List.map_cons] at h
  exact (List.cons.inj h).1

/-- The first character behind the sign of a numeral. -/
theorem body_head {hex : Bool} {n : Parts} (h : n.Ok hex) : ∃ c t, n.pre ++ (n.int ++ (fracBytes n.frac ++ expBytes n.exp)) = c :: t ∧
    (isDigit c = true ∨ c = 46) := by
  cases hex with
  | true =>
    have := h.pre
    simp only [if_true] at this
    rcases this with e | e <;> rw [e] <;> exact ⟨48, _, rfl, Or.inl (by decide)⟩
  | false =>
    have := h.pre
    simp only [Bool.false_eq_true, if_false] at this
    rw [this, List.nil_append]
    cases hi : n.int with
    | cons c t => exact ⟨c, _, rfl, Or.inl ((digitIn_false c).1 (h.int c (by rw [hi]; simp)))⟩
    | nil =>
      cases hf : n.frac with
      | none => have := h.nonempty; simp [hi, hf] at this
      | some ds => exact ⟨46, _, rfl, Or.inr rfl⟩

theorem num_head {c : UInt8} (h : isDigit c = true ∨ c = 46) : c ≠ 95 ∧ c ≠ 43 ∧ c ≠ 45 ∧ lowerByte c ≠ 105 ∧ lowerByte c ≠ 110 := by
  rcases h with h | rfl
  · refine ⟨isDigit_ne h (by decide), isDigit_ne h (by decide), isDigit_ne h (by decide), ?_, ?_⟩
    · rw [lowerByte_digit h]; exact isDigit_ne h (by decide)
    · rw [lowerByte_digit h]; exact isDigit_ne h (by decide)
  · decide

theorem mayFollow_sign {hex : Bool} {sign : Bytes} (h : signOk sign) : ¬ MayFollow hex sign := by
  rintro (⟨a, c, e, hd⟩ | ⟨_, s', hs', e⟩)
  · rcases h with rfl | rfl | rfl
    · simp at e
    · have := (List.append_inj' (s₁ := []) e rfl).2
      simp only [List.cons.injEq, and_true] at this
      rw [← this] at hd; revert hd; cases hex <;> decide
    · have := (List.append_inj' (s₁ := []) e rfl).2
      simp only [List.cons.injEq, and_true] at this
      rw [← this] at hd; revert hd; cases hex <;> decide
  · rcases h with rfl | rfl | rfl <;> rcases hs' with rfl | rfl | rfl <;> simp at e

/-- The sign of the text is the sign of the text without underscores. -/
theorem strip_sign {hex : Bool} {s sign t : Bytes} (hsep : Separates hex s) (hs : signOk sign) (h : strip s = sign ++ t) :
    ∃ w, s = sign ++ w ∧ strip w = t := by
  rcases hs with rfl | rfl | rfl
  · exact ⟨s, rfl, h⟩
  all_goals
    cases s with
    | nil => simp [strip] at h
    | cons c s =>
      have hc : c ≠ 95 := by
        rintro rfl
        exact mayFollow_sign (Or.inl rfl) (hsep [] s rfl).1
      rw [strip_cons_ne hc] at h
      obtain ⟨h1, h2⟩ := List.cons.inj h
      exact ⟨s, by rw [h1]; rfl, h2⟩

theorem splitSign_eq (s : Bytes) : ∃ sign, signOk sign ∧ s = sign ++ (splitSign s).2.2 ∧ (splitSign s).1 = (sign == b!"-") ∧
    ((splitSign s).2.1 = false ↔ sign = []) := splitSign_iff s

theorem parseFloat_iff (s : Bytes) (x : GoFloat) : parseFloat s = some x ↔ Denotes s x := by
  constructor
  · intro h
    obtain ⟨sign, hs, e, hneg, hpres⟩ := splitSign_iff s
    unfold parseFloat at h
    simp only at h
    have hsp : (splitSign (sign ++ (splitSign s).2.2)).2.2 = (splitSign s).2.2 := by rw [← e]
    generalize hw : (splitSign s).2.2 = w at *
    split at h
    · rename_i hinf
      cases h
      rw [hneg]
      exact .inf e hs hinf
    · split at h
      · rename_i hnan
        split at h
        · cases h
        · rename_i hp
          cases h
          have : sign = [] := hpres.1 (by simpa using hp)
          subst this
          rw [e]; exact .nan hnan
      · split at h
        · rename_i hhex
          obtain ⟨c, y, r, rfl, hc⟩ : ∃ c y r, w = 48 :: c :: y :: r ∧ lowerByte c = 120 := by
            unfold hexPrefix at hhex
            split at hhex
            · exact ⟨_, _, _, rfl, by simpa using hhex⟩
            · cases hhex
          have hx := lower_x.1 hc
          rw [hneg, e] at h
          simp only [List.drop_succ_cons, List.drop_zero] at h
          obtain ⟨hsep, h⟩ := (under_hex hs hx hsp).1 h
          obtain ⟨int, frac, exp, n, hn, hd, hok, m, e', rfl, hnear⟩ := (parseNum_iff _ _ _ _ (strip_no _) _).1 h
          subst hn
          refine Denotes.num (hex := true) (n := ⟨sign, [48, c], int, frac, exp⟩) ⟨⟨hs, ?_, hok.int, hok.frac, hok.nonempty, hok.exp, hok.must⟩, ?_, ?_⟩ hnear.1 hnear.2
          · rcases hx with rfl | rfl
            · exact Or.inl rfl
            · exact Or.inr rfl
          · rw [e]
            have h95 : c ≠ 95 := by rcases hx with rfl | rfl <;> decide
            have hsg : strip sign = sign := strip_id (by rcases hs with rfl | rfl | rfl <;> decide)
            change strip (sign ++ _) = _
            rw [strip_append, hsg, strip_cons_ne (by decide), strip_cons_ne h95, hd]
            rfl
          · rw [e]; exact hsep
        · rename_i hhex
          rw [hneg, e] at h
          obtain ⟨hsep, h⟩ := (under_dec hs hsp).1 h
          obtain ⟨int, frac, exp, n, hn, hd, hok, m, e', rfl, hnear⟩ := (parseNum_iff _ _ _ _ (strip_no _) _).1 h
          subst hn
          refine Denotes.num (hex := false) (n := ⟨sign, [], int, frac, exp⟩) ⟨⟨hs, rfl, hok.int, hok.frac, hok.nonempty, hok.exp, hok.must⟩, ?_, ?_⟩ hnear.1 hnear.2
          · rw [e]
            have hsg : strip sign = sign := strip_id (by rcases hs with rfl | rfl | rfl <;> decide)
            change strip (sign ++ _) = _
            rw [strip_append, hsg, hd]
            rfl
          · rw [e]; exact hsep
  · intro h
    cases h with
    | @inf sign w e hs hw =>
      obtain ⟨c, t, rfl, hc⟩ : ∃ c t, w = c :: t ∧ lowerByte c = 105 := by
        cases w with
        | nil => simp [lowerBytes] at hw
        | cons c t => exact ⟨c, t, rfl, hw.elim lowerBytes_head lowerBytes_head⟩
      have hsp := splitSign_append (t := c :: t) hs (by
        intro c' r e; cases e
        exact ⟨by rintro rfl; revert hc; decide, by rintro rfl; revert hc; decide⟩)
      rw [e]
      unfold parseFloat
      simp only
      rw [hsp]
      simp only
      rw [if_pos hw]
    | nan hn =>
      obtain ⟨c, t, rfl, hc⟩ : ∃ c t, s = c :: t ∧ lowerByte c = 110 := by
        cases s with
        | nil => simp [lowerBytes] at hn
        | cons c t => exact ⟨c, t, rfl, lowerBytes_head hn⟩
      have hsp := splitSign_append (sign := []) (t := c :: t) (Or.inl rfl) (by
        intro c' r e; cases e
        exact ⟨by rintro rfl; revert hc; decide, by rintro rfl; revert hc; decide⟩)
      rw [List.nil_append] at hsp
      unfold parseFloat
      simp only
      rw [hsp]
      simp only
      rw [hn, if_neg (by decide), if_pos rfl]
      rfl
    | @num hex n m e hw hnear hbig =>
      obtain ⟨hok, hst, hsep⟩ := hw
      obtain ⟨w, rfl, hwt⟩ := strip_sign hsep hok.sign hst
      obtain ⟨c, t, hct, hc⟩ := body_head hok
      obtain ⟨h95, h43, h45, h105, h110⟩ := num_head hc
      rw [hct] at hwt
      obtain ⟨w', rfl, hwt'⟩ : ∃ w', w = c :: w' ∧ strip w' = t := by
        cases w with
        | nil => simp [strip] at hwt
        | cons y w =>
          have hy : y ≠ 95 := by
            rintro rfl
            exact mayFollow_sign hok.sign (hsep _ _ rfl).1
          rw [strip_cons_ne hy] at hwt
          obtain ⟨h1, h2⟩ := List.cons.inj hwt
          exact ⟨w, by rw [h1], h2⟩
      have hsp := splitSign_append (t := c :: w') hok.sign (by intro c' r e; cases e; exact ⟨h43, h45⟩)
      have hninf : ¬ (lowerBytes (c :: w') = b!"inf" ∨ lowerBytes (c :: w') = b!"infinity") := by
        rintro (h | h) <;> exact h105 (lowerBytes_head h)
      have hnnan : ¬ lowerBytes (c :: w') = b!"nan" := fun h => h110 (lowerBytes_head h)
      unfold parseFloat
      simp only
      rw [hsp]
      simp only
      rw [if_neg hninf, if_neg hnnan]
      cases hex with
      | true =>
        obtain ⟨y, hy, hpre⟩ : ∃ y, (y = 120 ∨ y = 88) ∧ n.pre = [48, y] := by
          have := hok.pre
          simp only [if_true] at this
          rcases this with h | h
          · exact ⟨120, Or.inl rfl, h⟩
          · exact ⟨88, Or.inr rfl, h⟩
        have hyd : ¬ DigitIn true y ∧ y ≠ 95 := by rcases hy with rfl | rfl <;> decide
        rw [hpre] at hct
        obtain ⟨rfl, rfl⟩ : 48 = c ∧ y :: (n.int ++ (fracBytes n.frac ++ expBytes n.exp)) = t := List.cons.inj hct
        obtain ⟨r, rfl, hr⟩ : ∃ r, w' = y :: r ∧ strip r = n.int ++ (fracBytes n.frac ++ expBytes n.exp) := by
          cases w' with
          | nil => simp [strip] at hwt'
          | cons z r =>
            by_cases hz : z = 95
            · subst hz
              obtain ⟨_, d, b', hb, hd⟩ := hsep (n.sign ++ [48]) r (by simp)
              subst hb
              rw [strip_cons_eq, strip_cons_ne (digit_ne hd (no95 _))] at hwt'
              have := (List.cons.inj hwt').1
              rw [this] at hd
              exact absurd hd hyd.1
            · rw [strip_cons_ne hz] at hwt'
              obtain ⟨h1, h2⟩ := List.cons.inj hwt'
              exact ⟨r, by rw [h1], h2⟩
        obtain ⟨z, r', rfl⟩ : ∃ z r', r = z :: r' := by
          cases r with
          | cons z r' => exact ⟨z, r', rfl⟩
          | nil =>
            have h1 := hok.nonempty
            simp [strip] at hr
            exfalso; apply h1
            cases hf : n.frac with
            | none => simp [hr.1]
            | some ds => rw [hf] at hr; simp [fracBytes] at hr
        have hhex : hexPrefix (48 :: y :: z :: r') = true := by
          unfold hexPrefix
          simp only
          rw [lower_x.2 hy]; rfl
        rw [if_pos hhex]
        simp only [List.drop_succ_cons, List.drop_zero]
        rw [under_hex hok.sign hy (by rw [hsp])]
        refine ⟨hsep, ?_⟩
        rw [parseNum_iff _ _ _ _ (strip_no _)]
        refine ⟨n.int, n.frac, n.exp, _, rfl, hr, ?_, m, e, rfl, hnear, hbig⟩
        exact ⟨by split <;> simp [signOk], by simp, hok.int, hok.frac, hok.nonempty, hok.exp, hok.must⟩
      | false =>
        have hpre : n.pre = [] := by simpa using hok.pre
        have hnum : parseNum (n.sign == b!"-") false (n.sign ++ c :: w') (strip (c :: w')) = some (.fin n.neg m e) := by
          rw [parseNum_iff _ _ _ _ (strip_no _)]
          refine ⟨n.int, n.frac, n.exp, _, rfl, ?_, ?_, m, e, rfl, hnear, hbig⟩
          · rw [hwt, ← hct, hpre]; rfl
          · exact ⟨by split <;> simp [signOk], by simp, hok.int, hok.frac, hok.nonempty, hok.exp, hok.must⟩
        have hhex : hexPrefix (c :: w') = false := by
          unfold hexPrefix
          split
          · rename_i y z r heq
            cases heq
            cases hq : (lowerByte y == 120) with
            | false => rfl
            | true =>
              exfalso
              have hy : lowerByte y = 120 := by simpa using hq
              have hy95 : y ≠ 95 := by rintro rfl; revert hy; decide
              apply raw_of_parse hnum
              rw [strip_cons_ne (by decide), strip_cons_ne hy95]
              exact raw_bad (Or.inl hy)
          · rfl
        rw [hhex]
        simp only [Bool.false_eq_true, if_false]
        rw [under_dec hok.sign (by rw [hsp])]
        exact ⟨hsep, hnum⟩

theorem parseInt_some {s : Bytes} {n : Int} : parseInt s = some n ↔ IsInt64 s n := parseInt_iff s n

theorem parseInt_none {s : Bytes} : parseInt s = none ↔ ∀ n, ¬ IsInt64 s n := by
  cases h : parseInt s with
  | none => simp only [true_iff]; intro n hn; rw [parseInt_some.2 hn] at h; cases h
  | some m => simp only [reduceCtorEq, false_iff]; exact fun h' => h' m (parseInt_some.1 h)

theorem parseFloat_none {s : Bytes} : parseFloat s = none ↔ ∀ x, ¬ Denotes s x := by
  cases h : parseFloat s with
  | none => simp only [true_iff]; intro n hn; rw [(parseFloat_iff s n).2 hn] at h; cases h
  | some m => simp only [reduceCtorEq, false_iff]; exact fun h' => h' m ((parseFloat_iff s m).1 h)

theorem parseUint_iff (s : Bytes) (n : Nat) :
    parseUint s = some n ↔ s ≠ [] ∧ (∀ c ∈ s, isDigit c = true) ∧ n = decimalValue s ∧ n < 2 ^ 64 := by
  unfold parseUint
  split
  · simp
  · rename_i hne
    constructor
    · intro h
      cases hd : digitsVal s 0 with
      | none => rw [hd] at h; cases h
      | some m =>
        rw [hd] at h
        simp only at h
        obtain ⟨h1, h2⟩ := digitsVal_some _ _ _ hd
        split at h
        · rename_i hlt; cases h
          exact ⟨hne, h1, h2, hlt⟩
        · cases h
    · rintro ⟨_, h1, rfl, h3⟩
      rw [digitsVal_eq _ _ h1]
      exact if_pos h3

end Numeral
end Jsonutils
