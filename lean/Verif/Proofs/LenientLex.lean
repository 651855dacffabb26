import Verif.Spec.Lenient
import Verif.Proofs.ParseMore
import Verif.Proofs.Panic
import Verif.Proofs.NumeralFloat

/-! The lexical level of the lenient grammar agrees with the lexical functions of the parser. -/

set_option linter.unusedSimpArgs false

namespace Jsonutils.Lenient
open Rfc

theorem blank_iff (c : UInt8) : isWS c = true ↔ Blank c := by
  unfold isWS Blank; simp [or_assoc]

theorem blank_iff' (c : UInt8) : isWS c = false ↔ ¬ Blank c := by
  rw [← blank_iff]; simp

theorem delim_iff (c : UInt8) : isDelim c = true ↔ Delim c := by
  unfold isDelim Delim Blank; simp; grind

theorem delim_iff' (c : UInt8) : isDelim c = false ↔ ¬ Delim c := by
  rw [← delim_iff]; simp

theorem blanks_iff (w : Bytes) : (∀ c ∈ w, isWS c = true) ↔ Blanks w := by
  unfold Blanks; simp [blank_iff]

theorem skip_blanks {w : Bytes} (h : Blanks w) (s : Bytes) : skipEmpty (w ++ s) = skipEmpty s :=
  skipEmpty_ws w s ((blanks_iff w).2 h)

theorem skip_byte {w : Bytes} (h : Blanks w) {c : UInt8} (hc : ¬ Blank c) (s : Bytes) : skipEmpty (w ++ c :: s) = c :: s := by
  rw [skip_blanks h, skipEmpty_cons ((blank_iff' c).2 hc)]

theorem skip_starts {w u : Bytes} (h : Blanks w) (hu : Starts u) : skipEmpty (w ++ u) = u := by
  obtain ⟨c, r, rfl, hc⟩ := hu
  exact skip_byte h hc r

theorem skip_split {s t : Bytes} (h : skipEmpty s = t) : ∃ w, s = w ++ t ∧ Blanks w := by
  obtain ⟨w, h1, h2⟩ := skipEmpty_split s
  rw [h] at h1
  exact ⟨w, h1, (blanks_iff w).1 h2⟩

theorem skip_head {s t : Bytes} {c : UInt8} (h : skipEmpty s = c :: t) : ¬ Blank c :=
  (blank_iff' c).1 (skipEmpty_head h)

/-! ### Quoted strings -/

theorem escMeaning_eq (c : UInt8) : simpleEscape c = escMeaning c := by
  unfold simpleEscape escMeaning; rfl

theorem hexchar_inv (v : UInt8) {x : UInt8} (h : hexchar2num v = some x) : ∃ d : HexDigit, v = d.byte := by
  have key : ∀ n : Fin 256, (hexchar2num (UInt8.ofNat n.val)).isSome = true →
      (∃ a : Fin 16, UInt8.ofNat n.val = HexDigit.byte ⟨a, false⟩) ∨ (∃ a : Fin 16, UInt8.ofNat n.val = HexDigit.byte ⟨a, true⟩) := by
    decide +kernel
  have := key ⟨v.toNat, v.toNat_lt⟩ (by simp [h])
  simp only [UInt8.ofNat_toNat] at this
  rcases this with ⟨a, h⟩ | ⟨a, h⟩
  · exact ⟨_, h⟩
  · exact ⟨_, h⟩

theorem hexstr2byte_inv {a b x : UInt8} (h : hexstr2byte a b = some x) : ∃ a' b' : HexDigit, a = a'.byte ∧ b = b'.byte := by
  unfold hexstr2byte at h
  cases h1 : hexchar2num a <;> cases h2 : hexchar2num b <;> rw [h1, h2] at h <;> simp at h
  obtain ⟨a', ha⟩ := hexchar_inv a h1
  obtain ⟨b', hb⟩ := hexchar_inv b h2
  exact ⟨a', b', ha, hb⟩

theorem hexstr2rune_inv {a b c d : UInt8} {x : Nat} (h : hexstr2rune a b c d = some x) :
    ∃ a' b' c' d' : HexDigit, a = a'.byte ∧ b = b'.byte ∧ c = c'.byte ∧ d = d'.byte := by
  unfold hexstr2rune at h
  cases h1 : hexstr2byte a b <;> cases h2 : hexstr2byte c d <;> rw [h1, h2] at h <;> simp at h
  obtain ⟨a', b', ha, hb⟩ := hexstr2byte_inv h1
  obtain ⟨c', d', hc, hd⟩ := hexstr2byte_inv h2
  exact ⟨a', b', c', d', ha, hb, hc, hd⟩

theorem encode_decoded (a b c d : HexDigit) : encodeRune (unitOf a b c d) = (StrItem.unicode a b c d).decoded := by
  have hlt := unitOf_lt a b c d
  simp only [StrItem.decoded]
  by_cases hs : 0xD800 ≤ unitOf a b c d ∧ unitOf a b c d ≤ 0xDFFF
  · rw [if_pos hs]
    unfold encodeRune
    rw [if_neg (by omega), if_neg (by omega), if_pos hs]
  · rw [if_neg hs, encodeRune_utf8 hlt hs]

theorem hexstr2byte_val (a b : HexDigit) : hexstr2byte a.byte b.byte = some (UInt8.ofNat (a.val.val * 16 + b.val.val)) := by
  exact hexstr2byte_bytes a b

theorem parseQuote_sound (q : UInt8) (hq : q ≠ 92) : ∀ (n : Nat) (t : Bytes), t.length ≤ n → ∀ (buf s r : Bytes),
    parseQuote q t buf = .ok s r → ∃ s', s = buf ++ s' ∧ Quoted q t s' r := by
  intro n
  induction n with
  | zero =>
    intro t ht buf s r h
    cases t with
    | nil => rw [parseQuote_nil] at h; cases h; exact ⟨[], by simp, .eof⟩
    | cons c t => simp at ht
  | succ n ih =>
    intro t ht buf s r h
    rw [parseQuote.eq_def] at h
    split at h
    · cases h; exact ⟨[], by simp, .eof⟩
    · rename_i c cs
      simp only [List.length_cons] at ht
      split at h
      · rename_i hc; subst hc
        split at h
        · cases h
        · rename_i d ds
          simp only [List.length_cons] at ht
          split at h
          · rename_i hd; subst hd
            split at h
            · rename_i h1 h2 h3 h4 r'
              simp only [List.length_cons] at ht
              split at h
              · cases h
              · rename_i hr
                cases hx : hexstr2rune h1 h2 h3 h4 with
                | none => rw [hx] at h; cases h
                | some v =>
                  obtain ⟨a, b, c, d, rfl, rfl, rfl, rfl⟩ := hexstr2rune_inv hx
                  rw [hx] at h
                  rw [hexstr2rune_bytes] at hx
                  cases hx
                  obtain ⟨s', rfl, hs'⟩ := ih r' (by omega) _ _ _ h
                  refine ⟨(StrItem.unicode a b c d).decoded ++ s', by rw [encode_decoded]; simp, .unicode ?_ hs'⟩
                  intro h0; subst h0; simp at hr
            · cases h
          · split at h
            · rename_i hd; subst hd
              split at h
              · rename_i h1 h2 r'
                simp only [List.length_cons] at ht
                split at h
                · cases h
                · rename_i hr
                  cases hx : hexstr2byte h1 h2 with
                  | none => rw [hx] at h; cases h
                  | some v =>
                    obtain ⟨a, b, rfl, rfl⟩ := hexstr2byte_inv hx
                    rw [hx] at h
                    rw [hexstr2byte_val] at hx
                    cases hx
                    obtain ⟨s', rfl, hs'⟩ := ih r' (by omega) _ _ _ h
                    refine ⟨_ :: s', by simp, .hex ?_ hs'⟩
                    intro h0; subst h0; simp at hr
              · cases h
            · rename_i hd1 hd2
              obtain ⟨s', rfl, hs'⟩ := ih ds (by omega) _ _ _ h
              exact ⟨escMeaning d :: s', by simp [escMeaning_eq], .esc hd1 hd2 hs'⟩
      · rename_i hc
        split at h
        · rename_i hcq; subst hcq; cases h
          exact ⟨[], by simp, .close⟩
        · rename_i hcq
          obtain ⟨s', rfl, hs'⟩ := ih cs (by omega) _ _ _ h
          exact ⟨c :: s', by simp, .raw hcq hc hs'⟩

theorem parseQuote_complete {q : UInt8} (hq : q ≠ 92) {t s r : Bytes} (h : Quoted q t s r) : ∀ buf, parseQuote q t buf = .ok (buf ++ s) r := by
  induction h with
  | eof => intro buf; rw [parseQuote_nil]; simp
  | close => intro buf; rw [parseQuote_end _ _ hq]; simp
  | raw h1 h2 _ ih => intro buf; rw [parseQuote_plain _ _ h2 h1, ih]; simp
  | esc h1 h2 _ ih => intro buf; rw [parseQuote_simple _ _ _ _ h1 h2, ih, escMeaning_eq]; simp
  | @unicode a b c d t s r ht _ ih =>
    intro buf
    rw [parseQuote_unicode _ _ _ _ _ _ _ _ ht (hexstr2rune_bytes a b c d), ih, encode_decoded]; simp
  | @hex a b t s r ht _ ih =>
    intro buf
    rw [parseQuote.eq_def]
    simp only [if_true]
    rw [if_neg (by decide), hexstr2byte_val]
    have : t.isEmpty = false := by cases t <;> simp_all
    rw [this]
    simp [ih]

/-! ### Keys and words -/

theorem parseString_bare {k r : Bytes} (hk : Word k) (hr : Ends r) (hq : ∀ c, (k ++ r).head? = some c → ¬ Quote c) (hne : k ++ r ≠ []) :
    parseString (k ++ r) = .ok (k, false) r := by
  cases hkr : k ++ r with
  | nil => exact absurd hkr hne
  | cons c cs =>
    have h1 : ¬ (c = 34 ∨ c = 39) := hq c (by rw [hkr]; rfl)
    simp only [parseString]
    rw [if_neg h1, ← hkr]
    have ht : (k ++ r).takeWhile (fun x => !isDelim x) = k ∧ (k ++ r).dropWhile (fun x => !isDelim x) = r := by
      clear hkr h1 hq hne
      induction k with
      | nil =>
        cases r with
        | nil => simp
        | cons d r => have := (delim_iff d).2 (hr d rfl); simp [this]
      | cons d k ih =>
        have hd := (delim_iff' d).2 (hk d (by simp))
        have := ih (fun c hc => hk c (by simp [hc]))
        simp only [List.cons_append, List.takeWhile_cons, List.dropWhile_cons, hd]
        simp [this]
    rw [ht.1, ht.2]

theorem quote_ne {q : UInt8} (h : Quote q) : q ≠ 92 := by rcases h with rfl | rfl <;> decide
theorem quote_not_delim {q : UInt8} (h : Quote q) : ¬ Delim q := by
  rw [← delim_iff']; rcases h with rfl | rfl <;> decide

theorem ends_append {w : Bytes} (hw : Blanks w) {c : UInt8} (hc : Delim c) (r : Bytes) : Ends (w ++ c :: r) := by
  intro d hd
  cases w with
  | nil => cases hd; exact hc
  | cons x w => cases hd; exact Or.inl (hw _ (by simp))

theorem parseString_key {x k r : Bytes} (h : Key x k r) (hne : x ≠ []) : ∃ b, parseString x = .ok (k, b) r := by
  cases h with
  | @quoted q t _ _ hq h =>
    refine ⟨true, ?_⟩
    have hq' : q = 34 ∨ q = 39 := hq
    simp only [parseString]
    rw [if_pos hq', parseQuote_complete (quote_ne hq) h]
    rfl
  | bare hk hq hr h0 =>
    refine ⟨false, parseString_bare hk hr ?_ hne⟩
    intro c hc
    cases k with
    | nil => 
      intro hqc
      exact quote_not_delim hqc (hr c hc)
    | cons d k => exact hq c hc

theorem key_of_parseString {x k r : Bytes} {b : Bool} (h : parseString x = .ok (k, b) r) (hx : ∀ c, x.head? = some c → ¬ Blank c) : Key x k r := by
  cases b with
  | true =>
    cases x with
    | nil => simp [parseString] at h
    | cons q t =>
      simp only [parseString] at h
      split at h
      · rename_i hq
        cases hp : parseQuote q t [] with
        | ok s r' =>
          rw [hp] at h; cases h
          obtain ⟨s', rfl, hs⟩ := parseQuote_sound q (quote_ne hq) _ t (Nat.le_refl _) _ _ _ hp
          exact .quoted hq hs
        | err e r' => rw [hp] at h; cases h
        | panic p => rw [hp] at h; cases h
        | fuel => rw [hp] at h; cases h
      · cases h
  | false =>
    obtain ⟨rfl, h1, h2⟩ := parseString_token _ _ _ h
    refine .bare (fun c hc => (delim_iff' c).1 (h1 c hc)) ?_ ?_ ?_
    · intro c hc hq
      cases k with
      | nil => cases hc
      | cons d k =>
        cases hc
        simp only [List.cons_append, parseString] at h
        have hq' : c = 34 ∨ c = 39 := hq
        rw [if_pos hq'] at h
        cases hp : parseQuote c (k ++ r) [] <;> rw [hp] at h <;> cases h
    · intro c hc
      cases r with
      | nil => cases hc
      | cons d r => cases hc; exact (delim_iff c).1 (h2 c r rfl)
    · intro hk c hc
      subst hk
      exact hx c hc

/-! ### Bare words -/

theorem means_scalarOf {w : Bytes} (hw : w ≠ []) : Means w (scalarOf w) := by
  have hl : lowerBytes w ≠ [] := by cases w <;> simp_all [lowerBytes]
  unfold scalarOf
  simp only
  split
  · rename_i h; exact .keyword (.null (by simpa [hl] using h))
  · rename_i h0
    split
    · rename_i h; exact .keyword (.true h)
    · rename_i h1
      split
      · rename_i h; exact .keyword (.false h)
      · rename_i h2
        have hk : ∀ j, ¬ Keyword w j := by
          intro j hj
          cases hj with
          | null h => exact h0 (Or.inr h)
          | true h => exact h1 h
          | false h => exact h2 h
        cases hi : parseInt w with
        | some n => exact .int hk (Numeral.parseInt_some.1 hi)
        | none =>
          cases hf : parseFloat w with
          | some x => exact .float hk (Numeral.parseInt_none.1 hi) ((Numeral.parseFloat_iff _ _).1 hf)
          | none => exact .str hk (Numeral.parseInt_none.1 hi) (Numeral.parseFloat_none.1 hf)

theorem keyword_fun {w : Bytes} {j j' : J} (h : Keyword w j) (h' : Keyword w j') : j = j' := by
  cases h with
  | null h =>
    cases h' with
    | null _ => rfl
    | true h' => rcases h with h | h <;> rw [h] at h' <;> (exfalso; revert h'; decide)
    | false h' => rcases h with h | h <;> rw [h] at h' <;> (exfalso; revert h'; decide)
  | true h =>
    cases h' with
    | true _ => rfl
    | null h' => rcases h with h | h <;> rw [h] at h' <;> (exfalso; revert h'; decide)
    | false h' => rcases h with h | h <;> rw [h] at h' <;> (exfalso; revert h'; decide)
  | false h =>
    cases h' with
    | false _ => rfl
    | true h' => rcases h with h | h <;> rw [h] at h' <;> (exfalso; revert h'; decide)
    | null h' => rcases h with h | h <;> rw [h] at h' <;> (exfalso; revert h'; decide)

theorem means_fun {w : Bytes} {j j' : J} (h : Means w j) (h' : Means w j') : j = j' := by
  cases h with
  | keyword h =>
    cases h' with
    | keyword h' => exact keyword_fun h h'
    | int h' _ => exact absurd h (h' _)
    | float h' _ _ => exact absurd h (h' _)
    | str h' _ _ => exact absurd h (h' _)
  | int h hi =>
    cases h' with
    | keyword h' => exact absurd h' (h _)
    | int _ hi' =>
      have := (Numeral.parseInt_some.2 hi).symm.trans (Numeral.parseInt_some.2 hi')
      cases this; rfl
    | float _ hi' _ => exact absurd hi (hi' _)
    | str _ hi' _ => exact absurd hi (hi' _)
  | float h hi hx =>
    cases h' with
    | keyword h' => exact absurd h' (h _)
    | int _ hi' => exact absurd hi' (hi _)
    | float _ _ hx' =>
      have := ((Numeral.parseFloat_iff _ _).2 hx).symm.trans ((Numeral.parseFloat_iff _ _).2 hx')
      cases this; rfl
    | str _ _ hx' => exact absurd hx (hx' _)
  | str h hi hx =>
    cases h' with
    | keyword h' => exact absurd h' (h _)
    | int _ hi' => exact absurd hi' (hi _)
    | float _ _ hx' => exact absurd hx' (hx _)
    | str _ _ _ => rfl

theorem scalarOf_means {w : Bytes} {j : J} (hw : w ≠ []) (h : Means w j) : scalarOf w = j :=
  means_fun (means_scalarOf hw) h

end Jsonutils.Lenient
