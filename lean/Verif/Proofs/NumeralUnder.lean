import Verif.Proofs.Numeral

/-! Underscores in numerals. -/

namespace Jsonutils
namespace Numeral

/-- The text without underscores. -/
abbrev strip (s : Bytes) : Bytes := s.filter (· ≠ 95)

theorem strip_cons_ne {c : UInt8} (h : c ≠ 95) (s : Bytes) : strip (c :: s) = c :: strip s := by simp [strip, h]
theorem strip_cons_eq (s : Bytes) : strip (95 :: s) = strip s := by simp [strip]
theorem strip_id {s : Bytes} (h : 95 ∉ s) : strip s = s := by
  apply List.filter_eq_self.2
  intro a ha
  simp only [ne_eq, decide_not, Bool.not_eq_eq_eq_not, Bool.not_true, decide_eq_false_iff_not]
  rintro rfl; exact h ha
theorem strip_no (s : Bytes) : 95 ∉ strip s := by simp [strip]
theorem strip_append (a b : Bytes) : strip (a ++ b) = strip a ++ strip b := by simp [strip]

theorem scan_strip (base : Nat) (s : Bytes) (st : MantScan) : ∃ cons rest, s = cons ++ rest ∧ (∀ t, rest ≠ 95 :: t) ∧
    scanMant base s st = { scanMant base (strip s) st with under := st.under || decide (95 ∈ cons), rest := rest } ∧
    strip rest = (scanMant base (strip s) st).rest := by
  induction s generalizing st with
  | nil => exact ⟨[], [], rfl, by simp, by simp [scanMant, strip], rfl⟩
  | cons c s ih =>
    by_cases h95 : c = 95
    · subst h95
      obtain ⟨cons, rest, h1, h2, h3, h4⟩ := ih { st with under := true }
      have e : ∀ (t : Bytes) (st : MantScan) (b : Bool), (95 : UInt8) ∉ t → scanMant base t { st with under := b } = { scanMant base t st with under := b } := by
        intro t
        induction t with
        | nil => intros; rfl
        | cons d t iht =>
          intro st b hn
          have hd : d ≠ 95 := by rintro rfl; simp at hn
          have ht : (95 : UInt8) ∉ t := fun h => hn (by simp [h])
          rw [scanMant, scanMant, if_neg hd, if_neg hd]
          simp only
          split
          · split
            · rfl
            · exact iht { st with sawdot := true } b ht
          · split
            · rename_i dv _
              exact iht { st with mant := st.mant * base + dv, nd := st.nd + 1, frac := if st.sawdot then st.frac + 1 else st.frac,
                                  sawdigits := true } b ht
            · rfl
      refine ⟨95 :: cons, rest, by rw [h1]; rfl, h2, ?_, ?_⟩
      · rw [scanMant, if_pos rfl, h3, strip_cons_eq, e _ _ _ (strip_no s)]
        simp
      · rw [h4, strip_cons_eq, e _ _ _ (strip_no s)]
    · rw [strip_cons_ne h95]
      have hm : ∀ cons : Bytes, decide ((95 : UInt8) ∈ c :: cons) = decide ((95 : UInt8) ∈ cons) := by
        intro cons; simp [Ne.symm h95]
      rw [scanMant, scanMant, if_neg h95, if_neg h95]
      by_cases h46 : c = 46
      · rw [if_pos h46, if_pos h46]
        by_cases hs : st.sawdot = true
        · rw [if_pos hs, if_pos hs]
          exact ⟨[], c :: s, rfl, by intro t h; cases h; exact h95 rfl, by simp, by rw [strip_cons_ne h95]⟩
        · rw [if_neg hs, if_neg hs]
          obtain ⟨cons, rest, h1, h2, h3, h4⟩ := ih { st with sawdot := true }
          exact ⟨c :: cons, rest, by rw [h1]; rfl, h2, by rw [h3, hm], h4⟩
      · rw [if_neg h46, if_neg h46]
        cases hv : digitValBase base c with
        | none => exact ⟨[], c :: s, rfl, by intro t h; cases h; exact h95 rfl, by simp, by simp only; rw [strip_cons_ne h95]⟩
        | some d =>
          simp only
          obtain ⟨cons, rest, h1, h2, h3, h4⟩ := ih { st with mant := st.mant * base + d, nd := st.nd + 1,
                                                              frac := if st.sawdot then st.frac + 1 else st.frac, sawdigits := true }
          exact ⟨c :: cons, rest, by rw [h1]; rfl, h2, by rw [h3, hm], h4⟩

theorem exp_strip (s : Bytes) (e : Nat) (u : Bool) : ∃ cons rest, s = cons ++ rest ∧ (∀ t, rest ≠ 95 :: t) ∧
    scanExp s e u = ((scanExp (strip s) e false).1, u || decide (95 ∈ cons), rest) ∧ strip rest = (scanExp (strip s) e false).2.2 := by
  induction s generalizing e u with
  | nil => exact ⟨[], [], rfl, by simp, by simp [scanExp, strip], rfl⟩
  | cons c s ih =>
    by_cases h95 : c = 95
    · subst h95
      obtain ⟨cons, rest, h1, h2, h3, h4⟩ := ih e true
      refine ⟨95 :: cons, rest, by rw [h1]; rfl, h2, ?_, ?_⟩
      · rw [scanExp, if_pos rfl, h3, strip_cons_eq]; simp
      · rw [h4, strip_cons_eq]
    · rw [strip_cons_ne h95]
      have hm : ∀ cons : Bytes, decide ((95 : UInt8) ∈ c :: cons) = decide ((95 : UInt8) ∈ cons) := by
        intro cons; simp [Ne.symm h95]
      rw [scanExp, scanExp, if_neg h95, if_neg h95]
      by_cases hd : isDigit c = true
      · rw [if_pos hd, if_pos hd]
        obtain ⟨cons, rest, h1, h2, h3, h4⟩ := ih (if e < 10000 then e * 10 + (c.toNat - 48) else e) u
        exact ⟨c :: cons, rest, by rw [h1]; rfl, h2, by rw [h3, hm], h4⟩
      · rw [if_neg hd, if_neg hd]
        exact ⟨[], c :: s, rfl, by intro t h; cases h; exact h95 rfl, by simp, by rw [strip_cons_ne h95]⟩

theorem strip_nil_iff {r : Bytes} (h : ∀ t, r ≠ 95 :: t) : strip r = [] ↔ r = [] := by
  cases r with
  | nil => simp
  | cons c r =>
    have : c ≠ 95 := by rintro rfl; exact h r rfl
    rw [strip_cons_ne this]; simp

/-- Every underscore but one at the beginning follows a digit (or the `x`). -/
def SepS (hex : Bool) (t : Bytes) : Prop :=
  ∀ a c b, t = a ++ c :: 95 :: b → DigitIn hex c ∨ (hex = true ∧ (c = 120 ∨ c = 88))

theorem SepS.suffix {hex : Bool} {a t : Bytes} (h : SepS hex (a ++ t)) : SepS hex t := by
  intro x c b e
  exact h (a ++ x) c b (by rw [e]; simp)

theorem SepS.notAfter {hex : Bool} {c : UInt8} {t : Bytes} (h : SepS hex (c :: t)) (h1 : ¬ DigitIn hex c) (h2 : c ≠ 120) (h3 : c ≠ 88) :
    ∀ r, t ≠ 95 :: r := by
  rintro r rfl
  rcases h [] c r rfl with h | ⟨_, h | h⟩
  · exact h1 h
  · exact h2 h
  · exact h3 h

theorem Separates.sepS {hex : Bool} {p d : Bytes} (h : Separates hex (p ++ d)) : SepS hex d := by
  intro a c b e
  obtain ⟨h1, _⟩ := h (p ++ a ++ [c]) b (by rw [e]; simp)
  rcases h1 with ⟨a', c', h1, h2⟩ | ⟨hx, sign, _, h1 | h1⟩
  · have := List.append_inj' h1 rfl
    have : c = c' := by simpa using this.2
    rw [this]; exact Or.inl h2
  · have h1 : p ++ a ++ [c] = (sign ++ [48]) ++ [120] := by rw [h1]; simp
    have := List.append_inj' h1 rfl
    have : c = 120 := by simpa using this.2
    exact Or.inr ⟨hx, Or.inl this⟩
  · have h1 : p ++ a ++ [c] = (sign ++ [48]) ++ [88] := by rw [h1]; simp
    have := List.append_inj' h1 rfl
    have : c = 88 := by simpa using this.2
    exact Or.inr ⟨hx, Or.inr this⟩

theorem splitSign_strip {r : Bytes} (h : ∀ t, r ≠ 95 :: t) (h' : ∀ c t, r = c :: 95 :: t → c ≠ 43 ∧ c ≠ 45) :
    splitSign (strip r) = ((splitSign r).1, (splitSign r).2.1, strip (splitSign r).2.2) ∧ (∀ t, (splitSign r).2.2 ≠ 95 :: t) ∧
      ∃ p, 95 ∉ p ∧ r = p ++ (splitSign r).2.2 := by
  cases r with
  | nil => exact ⟨rfl, by simp [splitSign], [], by simp, rfl⟩
  | cons c r =>
    have hc : c ≠ 95 := by rintro rfl; exact h r rfl
    rw [strip_cons_ne hc]
    by_cases h43 : c = 43
    · subst h43
      exact ⟨rfl, by rintro t e; simp only [splitSign] at e; exact (h' 43 t (by rw [e])).1 rfl, [43], by simp, rfl⟩
    · by_cases h45 : c = 45
      · subst h45
        exact ⟨rfl, by rintro t e; simp only [splitSign] at e; exact (h' 45 t (by rw [e])).2 rfl, [45], by simp, rfl⟩
      · have e : ∀ t : Bytes, splitSign (c :: t) = (false, false, c :: t) := by
          intro t
          unfold splitSign
          split
          · rename_i h; cases h; exact absurd rfl h43
          · rename_i h; cases h; exact absurd rfl h45
          · rfl
        rw [e, e]
        exact ⟨by rw [strip_cons_ne hc], by simpa using h, [], by simp, rfl⟩

theorem parseExp_flag {hex u : Bool} {r : Bytes} {v : Int} {u' : Bool} (h : parseExp hex u r = some (v, u')) : u' = (u || decide (95 ∈ r)) := by
  cases r with
  | nil =>
    rw [parseExp] at h
    split at h
    · cases h
    · cases h; simp
  | cons c r =>
    rw [parseExp] at h
    by_cases hl : lowerByte c = (if hex then 112 else 101)
    · rw [if_pos hl] at h
      obtain ⟨sign, hs1, hs2, _, _⟩ := splitSign_iff r
      simp only at h
      split at h
      · cases h
      · rename_i d ds hds
        split at h
        · split at h
          · rename_i hemp
            obtain ⟨cons, rest, h1, h2, h3, h4⟩ := exp_strip (d :: ds) 0 u
            rw [h3] at h hemp
            simp only [Option.some.injEq, Prod.mk.injEq] at h
            have hrest : rest = [] := by simpa using hemp
            rw [← h.2]
            have hc : c ≠ 95 := by rintro rfl; revert hl; cases hex <;> decide
            have hsn : (95 : UInt8) ∉ sign := by rcases hs1 with rfl | rfl | rfl <;> decide
            have : (95 ∈ c :: r) ↔ 95 ∈ cons := by
              rw [hs2, hds, h1, hrest]
              simp [hsn, Ne.symm hc]
            simp only [this]
          · cases h
        · cases h
    · rw [if_neg hl] at h; cases h

theorem parseExp_strip {hex u : Bool} {r : Bytes} (h : SepS hex r) (h0 : ∀ t, r ≠ 95 :: t) :
    parseExp hex u r = (parseExp hex false (strip r)).map fun p => (p.1, u || decide (95 ∈ r)) := by
  cases r with
  | nil => cases hex <;> simp [parseExp, strip]
  | cons c r =>
    have hc : c ≠ 95 := by rintro rfl; exact h0 r rfl
    rw [strip_cons_ne hc]
    by_cases hl : lowerByte c = (if hex then 112 else 101)
    · have hlet := (letter_iff hex c).1 hl
      have hcd : ¬ DigitIn hex c ∧ c ≠ 120 ∧ c ≠ 88 := by
        cases hex with
        | true => rcases hlet with rfl | rfl <;> exact ⟨by decide, by decide, by decide⟩
        | false => rcases hlet with rfl | rfl <;> exact ⟨by decide, by decide, by decide⟩
      have hr0 := h.notAfter hcd.1 hcd.2.1 hcd.2.2
      have hr1 : ∀ c' t, r = c' :: 95 :: t → c' ≠ 43 ∧ c' ≠ 45 := by
        intro c' t e
        have h1 := h [c] c' t (by rw [e]; rfl)
        refine ⟨?_, ?_⟩
        · rintro rfl; revert h1; cases hex <;> decide
        · rintro rfl; revert h1; cases hex <;> decide
      obtain ⟨hss, hs0, p, hp, hpr⟩ := splitSign_strip hr0 hr1
      rw [parseExp, if_pos hl, parseExp, if_pos hl]
      simp only
      rw [hss]
      simp only
      cases hd : (splitSign r).2.2 with
      | nil => rfl
      | cons d ds =>
        have hd95 : d ≠ 95 := by rintro rfl; exact hs0 ds hd
        rw [strip_cons_ne hd95]
        simp only
        by_cases hdig : isDigit d = true
        · rw [if_pos hdig, if_pos hdig]
          obtain ⟨cons, rest, h1, h2, h3, h4⟩ := exp_strip (d :: ds) 0 u
          rw [strip_cons_ne hd95] at h3 h4
          rw [h3]
          obtain ⟨cons', rest', h1', h2', h3', h4'⟩ := exp_strip (d :: strip ds) 0 false
          have hst : strip (d :: strip ds) = d :: strip ds := by
            rw [strip_cons_ne hd95]; simp [strip]
          simp only
          by_cases hemp : rest = []
          · have hm : (95 ∈ c :: r) ↔ 95 ∈ cons := by
              rw [hpr, hd, h1, hemp]
              simp [hp, Ne.symm hc]
            have hr' : (scanExp (d :: strip ds) 0 false).2.2 = [] := by rw [← h4, hemp]; rfl
            rw [hemp, hr']
            simp [hm]
          · have hr' : (scanExp (d :: strip ds) 0 false).2.2 ≠ [] := by
              rw [← h4]; exact fun h => hemp ((strip_nil_iff h2).1 h)
            rw [if_neg (by simpa using hemp), if_neg (by simpa using hr')]
            rfl
        · rw [if_neg hdig, if_neg hdig]; rfl
    · rw [parseExp, if_neg hl, parseExp, if_neg hl]; rfl

/-- What parseNum finds before rounding: mantissa, digits behind the point, exponent, and whether there were underscores. -/
def raw (hex : Bool) (d : Bytes) : Option (Nat × Nat × Int × Bool) :=
  let st := scanMant (radix hex) d ⟨0, 0, 0, false, false, false, []⟩
  if st.sawdigits then (parseExp hex st.under st.rest).map fun p => (st.mant, st.frac, p.1, p.2) else none

def rounded (neg hex : Bool) (m f : Nat) (e : Int) : Option GoFloat :=
  let b := if hex then 2 else 10
  let ex : Int := e - (if hex then 4 else 1) * (f : Int)
  if 0 ≤ ex then mkFloat neg (m * b ^ ex.toNat) 1 else mkFloat neg m (b ^ (-ex).toNat)

theorem parseNum_raw (neg hex : Bool) (s d : Bytes) : parseNum neg hex s d =
    (raw hex d).bind fun q => if q.2.2.2 && !underscoreOK s then none else rounded neg hex q.1 q.2.1 q.2.2.1 := by
  unfold parseNum raw rounded
  change (if (scanMant (radix hex) d _).sawdigits = true then _ else _) = _
  simp only
  split
  · cases parseExp hex (scanMant (radix hex) d ⟨0, 0, 0, false, false, false, []⟩).under (scanMant (radix hex) d ⟨0, 0, 0, false, false, false, []⟩).rest <;> rfl
  · rfl

theorem raw_flag {hex : Bool} {d : Bytes} {m f : Nat} {e : Int} {u : Bool} (h : raw hex d = some (m, f, e, u)) : u = decide (95 ∈ d) := by
  unfold raw at h
  simp only at h
  split at h
  · obtain ⟨cons, rest, h1, h2, h3, h4⟩ := scan_strip (radix hex) d ⟨0, 0, 0, false, false, false, []⟩
    rw [h3] at h
    simp only [Bool.false_or] at h
    obtain ⟨p, hp, hq⟩ := Option.map_eq_some_iff.1 h
    obtain ⟨v, u'⟩ := p
    have := parseExp_flag hp
    simp only [Prod.mk.injEq] at hq
    rw [← hq.2.2.2, this, h1]
    simp
  · cases h

theorem raw_strip {hex : Bool} {d : Bytes} (h : SepS hex d) :
    raw hex d = (raw hex (strip d)).map fun q => (q.1, q.2.1, q.2.2.1, decide (95 ∈ d)) := by
  unfold raw
  simp only
  obtain ⟨cons, rest, h1, h2, h3, h4⟩ := scan_strip (radix hex) d ⟨0, 0, 0, false, false, false, []⟩
  obtain ⟨cons', rest', h1', h2', h3', h4'⟩ := scan_strip (radix hex) (strip d) ⟨0, 0, 0, false, false, false, []⟩
  have hu : (scanMant (radix hex) (strip d) ⟨0, 0, 0, false, false, false, []⟩).under = false := by
    rw [h3']
    have : (95 : UInt8) ∉ cons' := by
      intro hm; apply strip_no d; rw [h1']; simp [hm]
    simp [this]
  rw [h3, hu, ← h4]
  simp only
  split
  · rw [parseExp_strip (h1 ▸ h).suffix h2]
    cases hp : parseExp hex false (strip rest) with
    | none => rfl
    | some p =>
      simp only [Option.map_some, Bool.false_or]
      congr 4
      rw [h1]; simp
  · rfl

/-- Underscores are skipped if they separate digits, else the text is rejected. -/
theorem parseNum_under {neg hex : Bool} {s p d : Bytes} {x : GoFloat} (hs : s = p ++ d) (hp : 95 ∉ p)
    (h1 : ∀ m f e, raw hex d = some (m, f, e, true) → underscoreOK s = true → Separates hex s)
    (h2 : 95 ∈ d → Separates hex s → raw hex (strip d) ≠ none → underscoreOK s = true) :
    parseNum neg hex s d = some x ↔ Separates hex s ∧ parseNum neg hex s (strip d) = some x := by
  have h95 : 95 ∉ s → Separates hex s := by
    rintro h a b rfl
    simp at h
  rw [parseNum_raw, parseNum_raw]
  constructor
  · intro h
    obtain ⟨⟨m, f, e, u⟩, hr, hx⟩ := Option.bind_eq_some_iff.1 h
    have hu := raw_flag hr
    simp only at hx
    have hsep : Separates hex s := by
      cases u with
      | false =>
        apply h95
        rw [hs]
        have : 95 ∉ d := by simpa using hu.symm
        simp [hp, this]
      | true =>
        refine h1 m f e hr ?_
        cases hok : underscoreOK s with
        | true => rfl
        | false => rw [hok] at hx; simp at hx
    refine ⟨hsep, ?_⟩
    have hss : SepS hex d := by rw [hs] at hsep; exact hsep.sepS
    rw [raw_strip hss] at hr
    obtain ⟨⟨m', f', e', u'⟩, hr', hq⟩ := Option.map_eq_some_iff.1 hr
    simp only [Prod.mk.injEq] at hq
    obtain ⟨rfl, rfl, rfl, _⟩ := hq
    have hu' := raw_flag hr'
    have : u' = false := by rw [hu']; simp
    subst this
    rw [hr']
    simp only [Option.bind_some, Bool.false_and, Bool.false_eq_true, if_false]
    split at hx
    · cases hx
    · exact hx
  · rintro ⟨hsep, h⟩
    obtain ⟨⟨m, f, e, u⟩, hr, hx⟩ := Option.bind_eq_some_iff.1 h
    have hu : u = false := by rw [raw_flag hr]; simp
    subst hu
    simp only [Bool.false_and, Bool.false_eq_true, if_false] at hx
    have hss : SepS hex d := by rw [hs] at hsep; exact hsep.sepS
    rw [raw_strip hss, hr]
    simp only [Option.map_some, Option.bind_some]
    rw [if_neg]
    · exact hx
    · intro hb
      simp only [Bool.and_eq_true, decide_eq_true_eq, Bool.not_eq_true'] at hb
      have := h2 hb.1 hsep (by rw [hr]; simp)
      rw [this] at hb
      simp at hb

/-! ### underscoreOK -/

theorem uDigit_iff (hex : Bool) (c : UInt8) :
    (isDigit c || (hex && 97 ≤ lowerByte c && lowerByte c ≤ 102)) = true ↔ DigitIn hex c := by
  have hlt := c.toNat_lt
  cases hex with
  | false => rw [digitIn_false]; simp
  | true =>
    simp only [Bool.true_and, Bool.or_eq_true, Bool.and_eq_true, decide_eq_true_eq, u8le, isDigit_iff, DigitIn, true_and]
    have e1 : (97 : UInt8).toNat = 97 := rfl
    have e2 : (102 : UInt8).toNat = 102 := rfl
    have e7 : (c + 32).toNat = (c.toNat + 32) % 256 := UInt8.toNat_add c 32
    rw [e1, e2]
    unfold lowerByte
    simp only [Bool.and_eq_true, decide_eq_true_eq, u8le]
    have e5 : (65 : UInt8).toNat = 65 := rfl
    have e6 : (90 : UInt8).toNat = 90 := rfl
    rw [e5, e6]
    split
    · rw [e7]; omega
    · omega

theorem loop_iff (hex : Bool) (s : Bytes) (i : UInt8) : underscoreLoop hex s i = true ↔
    (i = 95 → ∃ d b, s = d :: b ∧ DigitIn hex d) ∧
    ∀ a b, s = a ++ 95 :: b → ((a = [] ∧ i = 48) ∨ ∃ a' c, a = a' ++ [c] ∧ DigitIn hex c) ∧ ∃ d b', b = d :: b' ∧ DigitIn hex d := by
  induction s generalizing i with
  | nil =>
    rw [underscoreLoop]
    simp
  | cons c s ih =>
    rw [underscoreLoop]
    by_cases hd : DigitIn hex c
    · rw [if_pos ((uDigit_iff hex c).2 hd), ih]
      have hc95 : c ≠ 95 := digit_ne hd (no95 hex)
      constructor
      · rintro ⟨_, h⟩
        refine ⟨fun _ => ⟨c, s, rfl, hd⟩, ?_⟩
        intro a b e
        cases a with
        | nil => cases e; exact absurd rfl hc95
        | cons x a =>
          obtain ⟨rfl, e'⟩ : c = x ∧ s = a ++ 95 :: b := List.cons.inj e
          obtain ⟨h1, h2⟩ := h a b e'
          refine ⟨Or.inr ?_, h2⟩
          rcases h1 with ⟨rfl, _⟩ | ⟨a', y, rfl, hy⟩
          · exact ⟨[], c, rfl, hd⟩
          · exact ⟨c :: a', y, rfl, hy⟩
      · rintro ⟨_, h⟩
        refine ⟨by intro h; exact absurd h (by decide), ?_⟩
        intro a b e
        obtain ⟨h1, h2⟩ := h (c :: a) b (by rw [e]; rfl)
        refine ⟨?_, h2⟩
        rcases h1 with ⟨h1, _⟩ | ⟨a', y, h1, hy⟩
        · cases h1
        · cases a' with
          | nil => left; exact ⟨by simpa using (List.cons.inj h1).2, rfl⟩
          | cons z a' => right; exact ⟨a', y, (List.cons.inj h1).2, hy⟩
    · rw [if_neg (mt (uDigit_iff hex c).1 hd)]
      by_cases h95 : c = 95
      · subst h95
        rw [if_pos rfl]
        by_cases hi : i = 48
        · subst hi
          have : ((48 : UInt8) != 48) = false := by decide
          rw [this]
          simp only [Bool.false_eq_true, if_false]
          rw [ih]
          constructor
          · rintro ⟨h0, h⟩
            refine ⟨by intro h; exact absurd h (by decide), ?_⟩
            intro a b e
            cases a with
            | nil => cases e; exact ⟨Or.inl ⟨rfl, trivial⟩, h0 rfl⟩
            | cons x a =>
              obtain ⟨rfl, e'⟩ : 95 = x ∧ s = a ++ 95 :: b := List.cons.inj e
              obtain ⟨h1, h2⟩ := h a b e'
              refine ⟨Or.inr ?_, h2⟩
              rcases h1 with ⟨_, h1⟩ | ⟨a', y, rfl, hy⟩
              · exact absurd h1 (by decide)
              · exact ⟨95 :: a', y, rfl, hy⟩
          · rintro ⟨_, h⟩
            refine ⟨fun _ => (h [] s rfl).2, ?_⟩
            intro a b e
            obtain ⟨h1, h2⟩ := h (95 :: a) b (by rw [e]; rfl)
            refine ⟨?_, h2⟩
            rcases h1 with ⟨h1, _⟩ | ⟨a', y, h1, hy⟩
            · cases h1
            · cases a' with
              | nil =>
                have := (List.cons.inj h1).1
                rw [← this] at hy
                exact absurd hy (no95 hex)
              | cons z a' => right; exact ⟨a', y, (List.cons.inj h1).2, hy⟩
        · have : (i != 48) = true := by simpa using hi
          rw [this]
          simp only [if_true, Bool.false_eq_true, false_iff]
          rintro ⟨_, h⟩
          obtain ⟨h1, _⟩ := h [] s rfl
          rcases h1 with ⟨_, h1⟩ | ⟨a', y, h1, _⟩
          · exact hi h1
          · simp at h1
      · rw [if_neg h95]
        by_cases hi : i = 95
        · rw [if_pos hi]
          simp only [Bool.false_eq_true, false_iff]
          rintro ⟨h, _⟩
          obtain ⟨d, b, e, hd'⟩ := h hi
          cases e
          exact hd hd'
        · rw [if_neg hi, ih]
          constructor
          · rintro ⟨_, h⟩
            refine ⟨fun h => absurd h hi, ?_⟩
            intro a b e
            cases a with
            | nil => cases e; exact absurd rfl h95
            | cons x a =>
              obtain ⟨rfl, e'⟩ : c = x ∧ s = a ++ 95 :: b := List.cons.inj e
              obtain ⟨h1, h2⟩ := h a b e'
              refine ⟨Or.inr ?_, h2⟩
              rcases h1 with ⟨_, h1⟩ | ⟨a', y, rfl, hy⟩
              · exact absurd h1 (by decide)
              · exact ⟨c :: a', y, rfl, hy⟩
          · rintro ⟨_, h⟩
            refine ⟨by intro h; exact absurd h (by decide), ?_⟩
            intro a b e
            obtain ⟨h1, h2⟩ := h (c :: a) b (by rw [e]; rfl)
            refine ⟨?_, h2⟩
            rcases h1 with ⟨h1, _⟩ | ⟨a', y, h1, hy⟩
            · cases h1
            · cases a' with
              | nil =>
                have := (List.cons.inj h1).1
                rw [← this] at hy
                exact absurd hy hd
              | cons z a' => right; exact ⟨a', y, (List.cons.inj h1).2, hy⟩

end Numeral
end Jsonutils
