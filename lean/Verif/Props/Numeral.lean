import Verif.Proofs.NumeralFloat
import Verif.Props.Lenient
import Verif.Props.Float
import Verif.Props.UnmarshalMore

/-!
# Texts that are numbers: C71

`Denotes`, `IsInt64` and `Separates` are defined in `Spec/Numeral`.
-/

namespace Jsonutils.Props
open Numeral

/-- **C71, Int() and Float() of a text.** `Int()` returns `n` exactly for the signed decimal integers of 64 bits, `Float()` returns `x` exactly
for the texts that denote it; all other texts are errors. -/
theorem C71_accessors (f : Nat) (s : Bytes) :
    (∀ n, (J.str s).int? (f + 1) [] = .ok n ↔ IsInt64 s n) ∧
    ((∀ n, ¬ IsInt64 s n) → (J.str s).int? (f + 1) [] = .err .invalidInt) ∧
    (∀ x, (J.str s).float? (f + 1) [] = .ok x ↔ Denotes s x) ∧
    ((∀ x, ¬ Denotes s x) → (J.str s).float? (f + 1) [] = .err .invalidFloat) := by
  have hi : (J.str s).int? (f + 1) [] = match parseInt s with | some n => .ok n | none => .err .invalidInt := by
    simp only [J.int?, J.scalarAcc, intOfText]
    cases parseInt s <;> rfl
  have hf : (J.str s).float? (f + 1) [] = match parseFloat s with | some n => .ok n | none => .err .invalidFloat := by
    simp only [J.float?, J.scalarAcc, floatOfText]
    cases parseFloat s <;> rfl
  rw [hi, hf]
  refine ⟨fun n => ?_, fun h => ?_, fun x => ?_, fun h => ?_⟩
  · rw [← parseInt_some]; cases parseInt s <;> simp
  · rw [parseInt_none.2 h]
  · rw [← parseFloat_iff]; cases parseFloat s <;> simp
  · rw [parseFloat_none.2 h]

/-- **C71, one meaning.** A text denotes at most one number. -/
theorem C71_unique {s : Bytes} : (∀ {n n' : Int}, IsInt64 s n → IsInt64 s n' → n = n') ∧ (∀ {x x' : GoFloat}, Denotes s x → Denotes s x' → x = x') := by
  constructor
  · intro n n' h h'
    have := (parseInt_some.2 h).symm.trans (parseInt_some.2 h')
    cases this; rfl
  · intro x x' h h'
    have := ((parseFloat_iff _ _).2 h).symm.trans ((parseFloat_iff _ _).2 h')
    cases this; rfl

/-- **C71, bare words.** A document that is a bare word (no blank, comma, colon or closing bracket in it, and no quote or opening bracket
at its beginning) is an integer if it is one of 64 bits, else a double if it denotes one, else (unless it is a keyword or a reference) a text. -/
theorem C71_words (w : Bytes) (hne : w ≠ []) (hw : Lenient.Word w) (hh : ∀ c, w.head? = some c → ¬ Lenient.Quote c ∧ c ≠ 91 ∧ c ≠ 123)
    (hr : ∀ d, w ≠ 60 :: (d ++ [62])) (hk : ∀ j, ¬ Lenient.Keyword w j) :
    (∀ n, parse w = .ok (.int n) ↔ IsInt64 w n) ∧
    ((∀ n, ¬ IsInt64 w n) → (∀ x, parse w = .ok (.float x 0) ↔ Denotes w x)) ∧
    ((∀ n, ¬ IsInt64 w n) → (∀ x, ¬ Denotes w x) → parse w = .ok (.str w)) := by
  have key : ∀ {j : J}, Lenient.Means w j → parse w = .ok j := by
    intro j hm
    rw [C52_accepts]
    refine ⟨[], w, [], [], rfl, by simp [Lenient.Blanks], ?_, by simp⟩
    have := Lenient.Value.word (r := []) hne hw (by intro c hc; cases hc) hh hr hm
    simpa using this
  refine ⟨fun n => ⟨fun h => ?_, fun h => key (.int hk h)⟩, fun hi x => ⟨fun h => ?_, fun h => key (.float hk hi h)⟩, fun hi hx => key (.str hk hi hx)⟩
  · have hs := Lenient.means_scalarOf hne
    have := (key hs).symm.trans h
    have e : scalarOf w = .int n := by injection this
    rw [e] at hs
    cases hs with
    | keyword h => cases h
    | int _ h => exact h
  · have hs := Lenient.means_scalarOf hne
    have := (key hs).symm.trans h
    have e : scalarOf w = .float x 0 := by injection this
    rw [e] at hs
    cases hs with
    | keyword h => cases h
    | float _ _ h => exact h

/-- **C71, floats read back** (`J.reread` of C01): a float comes back as what its text denotes, an integer if it is one of 64 bits. -/
theorem C71_reread (x : GoFloat) (bit : Nat) : let s := (J.float x bit).toBytes
    (∀ n, (J.float x bit).reread = .int n ↔ IsInt64 s n) ∧
    (∀ y b, (J.float x bit).reread = .float y b ↔ b = 0 ∧ (∀ n, ¬ IsInt64 s n) ∧ Denotes s y) ∧
    ((∀ n, ¬ IsInt64 s n) → (∀ y, ¬ Denotes s y) → (J.float x bit).reread = .str s) := by
  have h : (J.float x bit).reread = numberOf (J.float x bit).toBytes := rfl
  simp only [h]
  generalize (J.float x bit).toBytes = s
  unfold numberOf
  refine ⟨fun n => ?_, fun y b => ?_, fun h1 h2 => ?_⟩
  · rw [← parseInt_some]
    cases parseInt s with
    | some m => simp
    | none => cases parseFloat s <;> simp
  · rw [← parseInt_none, ← parseFloat_iff]
    cases parseInt s with
    | some m => simp
    | none => cases parseFloat s <;> simp [eq_comm, and_comm]
  · rw [parseInt_none.2 h1, parseFloat_none.2 h2]

variable {P : UEnv}

/-- **C71, number variables.** A text that is not empty, cleared of the grouping of amounts (C37): an unsigned variable takes decimal digits
without sign worth less than 2^64; an integer variable takes signed decimal integers of 64 bits; float variables take the texts that denote
floats; every other text is an error that leaves the variable as it is. -/
theorem C71_variables (s t : Bytes) (ht : t = normalizeCurrency P.us P.eu s) (hs : s ≠ []) (b : Nat) (v : UV) :
    (∀ n, t ≠ [] → (∀ c ∈ t, isDigit c = true) → n = decimalValue t → n < 2 ^ 64 → (J.str s).unm P (.uint b) v = uok (.int ((n : Int) % 2 ^ b))) ∧
    (¬ (t ≠ [] ∧ (∀ c ∈ t, isDigit c = true) ∧ decimalValue t < 2 ^ 64) → (J.str s).unm P (.uint b) v = uerr v .num) ∧
    (∀ n, IsInt64 t n → (J.str s).unm P (.int b) v = uok (.int (wrapI b n))) ∧
    ((∀ n, ¬ IsInt64 t n) → (J.str s).unm P (.int b) v = uerr v .num) ∧
    (∀ x, Denotes t x → (J.str s).unm P .float64 v = uok (.float x) ∧ (J.str s).unm P .float32 v = uok (.float (toF32 x))) ∧
    ((∀ x, ¬ Denotes t x) → (J.str s).unm P .float64 v = uerr v .num ∧ (J.str s).unm P .float32 v = uerr v .num) := by
  subst ht
  have he : s.isEmpty = false := by cases s <;> simp_all
  simp only [J.unm, UEnv.alloc, unmStr, he, Bool.false_eq_true, if_false]
  refine ⟨?_, ?_, ?_, ?_, ?_, ?_⟩
  · intro n h1 h2 h3 h4
    rw [(parseUint_iff _ n).2 ⟨h1, h2, h3, h4⟩]
    rfl
  · intro h
    cases hp : parseUint (normalizeCurrency P.us P.eu s) with
    | none => rfl
    | some n =>
      obtain ⟨h1, h2, rfl, h4⟩ := (parseUint_iff _ n).1 hp
      exact absurd ⟨h1, h2, h4⟩ h
  · intro n h; rw [parseInt_some.2 h]
  · intro h; rw [parseInt_none.2 h]
  · intro x h; rw [(parseFloat_iff _ _).2 h]; exact ⟨rfl, rfl⟩
  · intro h; rw [parseFloat_none.2 h]; exact ⟨rfl, rfl⟩

/-- **C71, float32.** A `float32` variable holds the `float32` nearest to the double (the even one of two), or an infinity if that is half a step
or more beyond the largest `float32`. -/
theorem C71_float32 (neg : Bool) (m e : Nat) :
    (∃ m' e' m'' e'', toF32 (.fin neg m e) = .fin neg m'' e'' ∧ NearestEven f32 (m * 2 ^ e) (2 ^ f64.bias) m' e' ∧
      ¬ TooBig f32 (m * 2 ^ e) (2 ^ f64.bias) ∧ Canon f64 m'' e'' ∧ m'' * 2 ^ e'' * 2 ^ f32.bias = m' * 2 ^ e' * 2 ^ f64.bias) ∨
    (toF32 (.fin neg m e) = .inf neg ∧ TooBig f32 (m * 2 ^ e) (2 ^ f64.bias)) := by
  have hp : 2 ≤ f32.prec := by decide
  have hd : 0 < 2 ^ f64.bias := Nat.pow_pos (by decide)
  rcases roundVia_spec f32 f64 (by decide) (by decide) (by decide) (by decide) (by decide) neg m e with ⟨h1, h2⟩ | ⟨m', e', a, b, h1, h2, h3, _, h4⟩
  · exact Or.inr ⟨h2, (roundPos_none hp hd).1 h1⟩
  · obtain ⟨h5, h6⟩ := (roundPos_iff hp hd).1 h1
    exact Or.inl ⟨a, b, m', e', h2, h5, h6, h3, h4⟩

/-- **C71, exponents.** An exponent below 100000 is taken as it stands (a longer one is cut to its first five digits). -/
theorem C71_exponent (e : Expo) (hd : ∀ c ∈ e.digits, DigitIn false c) (h : worth 10 e.digits < 100000) :
    e.value = if e.sign = b!"-" then -(worth 10 e.digits : Int) else worth 10 e.digits := by
  unfold Expo.value
  rw [countedDigits_small hd h]

/-! Examples: `0x1_0p-2` is 4 and `1_0.5e1` is 105; `1__0`, `_1`, `1_`, `1_.5` and `0x10` are no numbers. -/

example : Separates true b!"0x1_0p-2" := (sep_hex (sign := []) (r := b!"1_0p-2") (Or.inl rfl) (Or.inl rfl)).2 (by decide)

example : (J.str b!"0x1_0p-2").float? 1 [] = .ok (.fin false (2 ^ 52) 1024) := by
  refine ((C71_accessors 0 _).2.2.1 _).2 ((parseFloat_iff _ _).1 ?_)
  decide +kernel

example : parse b!"1_0.5e1" = .ok (.float (.fin false 7388718138654720 1028) 0) := by
  have hk : ∀ j, ¬ Lenient.Keyword b!"1_0.5e1" j := by
    intro j h
    cases h with
    | null h => revert h; decide
    | true h => revert h; decide
    | false h => revert h; decide
  have hi : ∀ n, ¬ IsInt64 b!"1_0.5e1" n := parseInt_none.1 (by decide)
  refine ((C71_words b!"1_0.5e1" (by decide) ?_ ?_ ?_ hk).2.1 hi _).2 ((parseFloat_iff _ _).1 (by decide +kernel))
  · intro c hc; simp at hc; rcases hc with rfl | rfl | rfl | rfl | rfl | rfl | rfl <;> unfold Lenient.Delim Lenient.Blank <;> decide
  · intro c hc; cases hc; unfold Lenient.Quote; decide
  · intro d h; cases h

example : (J.str b!"1__0").float? 1 [] = .err .invalidFloat ∧ (J.str b!"_1").float? 1 [] = .err .invalidFloat ∧
    (J.str b!"1_").float? 1 [] = .err .invalidFloat ∧ (J.str b!"1_.5").float? 1 [] = .err .invalidFloat ∧
    (J.str b!"0x10").float? 1 [] = .err .invalidFloat := by
  refine ⟨?_, ?_, ?_, ?_, ?_⟩ <;> exact (C71_accessors 0 _).2.2.2 (parseFloat_none.1 (by decide))

/-- A text written out as a numeral: sign, prefix, digits, exponent. -/
example : Written true ⟨b!"-", b!"0X", b!"a", some b!"8", some ⟨112, b!"+", b!"3"⟩⟩ b!"-0Xa.8p+3" := by
  refine ⟨⟨Or.inr (Or.inr rfl), Or.inr rfl, by decide, ?_, by decide, ?_, by simp⟩, by decide, ?_⟩
  · intro ds h; cases h; decide
  · intro e h; cases h; exact ⟨Or.inl rfl, Or.inr (Or.inl rfl), by decide, by decide⟩
  · intro a b h
    have : (95 : UInt8) ∈ b!"-0Xa.8p+3" := by rw [h]; simp
    exact absurd this (by decide)

end Jsonutils.Props
