import Verif.Proofs.FloatText
import Verif.Proofs.Quoted
import Verif.Props.Parse
import Verif.Model.Access
import Verif.Model.Marshal

/-!
# Numbers with a fraction: C69

`GoFloat.fin neg m e` is the double `± m · 2^(e - 1074)`.  `NearestEven`, `ReadsAs`, `ShortestDec` and `IsDecimal` are defined in
`Spec/Float`.
-/

namespace Jsonutils.Props
open Rfc

theorem canon_values (f : FFmt) (hp : 0 < f.prec) (n : Nat) :
    (∃ m e, Canon f m e ∧ n = m * 2 ^ e) ↔ ∃ c q, c < 2 ^ f.prec ∧ q ≤ f.maxE ∧ n = c * 2 ^ q := by
  constructor
  · rintro ⟨m, e, ⟨h1, h2, _⟩, h3⟩
    exact ⟨m, e, h1, h2, h3⟩
  · rintro ⟨c, q, h1, h2, rfl⟩
    induction q generalizing c with
    | zero => exact ⟨c, 0, ⟨h1, Nat.zero_le _, .inl rfl⟩, rfl⟩
    | succ q ih =>
      by_cases hc : 2 ^ (f.prec - 1) ≤ c
      · exact ⟨c, q + 1, ⟨h1, h2, .inr hc⟩, rfl⟩
      · have he : 2 ^ f.prec = 2 ^ (f.prec - 1) * 2 := by rw [← Nat.pow_succ]; congr 1; omega
        obtain ⟨m, e, k1, k2⟩ := ih (2 * c) (by omega) (by omega)
        exact ⟨m, e, k1, by rw [← k2, Nat.pow_succ, Nat.mul_comm 2 c, Nat.mul_assoc, Nat.mul_comm 2]⟩

/-- **C69, the formats.** The numbers `m · 2^(e - bias)` of the formats are those of IEEE 754: with `p` digits and the greatest exponent
`emax`, the numbers `c · 2^(q - (emax + p - 2))` with `c < 2^p` and `q < 2·emax`; 53 and 1023 for a double, 24 and 127 for a single. -/
theorem C69_formats : ∀ x ∈ [(f64, 53, 1023), (f32, 24, 127)], x.1.bias = x.2.2 + x.2.1 - 2 ∧
    ∀ n, (∃ m e, Canon x.1 m e ∧ n = m * 2 ^ e) ↔ ∃ c q, c < 2 ^ x.2.1 ∧ q < 2 * x.2.2 ∧ n = c * 2 ^ q := by
  intro x hx
  simp only [List.mem_cons, List.not_mem_nil, or_false] at hx
  rcases hx with rfl | rfl
  · refine ⟨rfl, fun n => (canon_values f64 (by decide) n).trans ?_⟩
    constructor <;> rintro ⟨c, q, h1, h2, h3⟩ <;> exact ⟨c, q, h1, (by simp only [f64] at *; omega), h3⟩
  · refine ⟨rfl, fun n => (canon_values f32 (by decide) n).trans ?_⟩
    constructor <;> rintro ⟨c, q, h1, h2, h3⟩ <;> exact ⟨c, q, h1, (by simp only [f32] at *; omega), h3⟩

/-- **C69, reading.** A JSON number that is no integer of 64 bits is the double nearest to it, the even one of two; if it is at least
half a step beyond the largest double, it is kept as its text. -/
theorem C69_read (n : Number) (hn : n.Ok) (hi : ¬ (n.frac = none ∧ n.exp = none ∧ InI64 n.intValue)) :
    (∃ m e, parse n.text = .ok (.float (.fin n.neg m e) 0) ∧ ReadsAs f64 n.mant n.power m e) ∨
    (parse n.text = .ok (.str n.text) ∧ TooBig f64 (n.mant * 10 ^ n.power.toNat) (10 ^ (-n.power).toNat)) := by
  have hp : parse n.text = .ok n.val := by
    have := (C04_rfc8259_accepted [] (.num n) [] hn).2
    simpa [wsText, Tree.text, Tree.val] using this
  have hv : n.val = match n.double with | some x => .float x 0 | none => .str n.text := by
    unfold Number.val
    rw [if_neg (by simpa using hi)]
    cases n.double <;> rfl
  rw [hp, hv]
  cases hd : n.double with
  | none => exact Or.inr ⟨rfl, (double_none n).1 hd⟩
  | some x =>
    obtain ⟨m, e, rfl, h⟩ := (double_reads n x).1 hd
    exact Or.inl ⟨m, e, rfl, h⟩

/-- There is only one such double. -/
theorem C69_unique {c : Nat} {k : Int} {m e m' e' : Nat} (h : ReadsAs f64 c k m e) (h' : ReadsAs f64 c k m' e') : m' = m ∧ e' = e :=
  nearest_unique (by decide) (ten_pos _) h.1 h'.1

/-- **C69, Float().** A text holding a JSON number: `Float()` returns the double nearest to it, or an error if that is too big.  An
integer: the double nearest to it. -/
theorem C69_accessor (f : Nat) (n : Number) (hn : n.Ok) (i : Int) (hi : InI64 i) :
    ((∃ m e, (J.str n.text).float? (f + 1) [] = .ok (.fin n.neg m e) ∧ ReadsAs f64 n.mant n.power m e) ∨
      ((J.str n.text).float? (f + 1) [] = .err .invalidFloat ∧ TooBig f64 (n.mant * 10 ^ n.power.toNat) (10 ^ (-n.power).toNat))) ∧
    (∃ m e, (J.int i).float? (f + 1) [] = .ok (.fin (i < 0) m e) ∧ NearestEven f64 i.natAbs 1 m e) := by
  constructor
  · have h : (J.str n.text).float? (f + 1) [] = match n.double with | some x => .ok x | none => .err .invalidFloat := by
      simp only [J.float?, J.scalarAcc, floatOfText, parseFloat_number n hn]
      cases n.double <;> rfl
    rw [h]
    cases hd : n.double with
    | none => exact Or.inr ⟨rfl, (double_none n).1 hd⟩
    | some x =>
      obtain ⟨m, e, rfl, h⟩ := (double_reads n x).1 hd
      exact Or.inl ⟨m, e, rfl, h⟩
  · have h : (J.int i).float? (f + 1) [] = .ok (floatOfInt i) := by
      simp only [J.float?, J.scalarAcc]
    rw [h]
    have hne : roundPos f64 i.natAbs 1 ≠ none := by
      intro h
      have hb := (roundPos_none (f := f64) (by decide) (by decide)).1 h
      unfold TooBig at hb
      have h1 : i.natAbs ≤ 2 ^ 64 := by
        have := hi.1; have := hi.2; unfold i64min i64max at *; omega
      have h2 : 2 * (i.natAbs * 2 ^ f64.bias) ≤ 2 * (2 ^ 64 * 2 ^ f64.bias) := Nat.mul_le_mul_left _ (Nat.mul_le_mul_right _ h1)
      have h3 : 2 * (2 ^ 64 * 2 ^ f64.bias) < (2 * 2 ^ f64.prec - 1) * 2 ^ f64.maxE * 1 := by decide +kernel
      omega
    unfold floatOfInt
    by_cases h0 : i = 0
    · rw [if_pos h0, h0]
      refine ⟨0, 0, rfl, ?_⟩
      have : roundPos f64 0 1 = some (0, 0) := by decide +kernel
      exact roundPos_some (by decide) (by decide) this
    · rw [if_neg h0]
      cases hr : roundPos f64 i.natAbs 1 with
      | none => exact absurd hr hne
      | some p => exact ⟨p.1, p.2, rfl, roundPos_some (by decide) (by decide) hr⟩

/-- **C69, writing.** `String()` of a finite double other than zero is a JSON number without exponent: of all decimal numbers that are
read as this double one with the fewest digits, and the nearest of these. -/
theorem C69_write (neg : Bool) (m e bit : Nat) (hb : bit ≠ 32) (hc : Canon f64 m e) (hm : 0 < m) :
    ∃ (n : Number) (c : Nat) (k : Int), (J.float (.fin neg m e) bit).toBytes = n.text ∧ IsDecimal n neg c k ∧ ShortestDec f64 m e c k := by
  obtain ⟨n, c, k, h1, h2, h3⟩ := format_number neg (f := f64) (Or.inr rfl) hc hm
  refine ⟨n, c, k, ?_, h2, h3⟩
  have hbits : floatBits bit ≠ 32 := by unfold floatBits; split <;> omega
  rw [J.toBytes, h1]
  unfold formatFloat
  simp only [hbits, if_false]

/-- **C69, writing, 32 bits.** For a `float32` (the number `m' · 2^(e' - 149)`), "read as" means: as a `float32`. -/
theorem C69_write32 (neg : Bool) (m e m' e' : Nat) (hc : Canon f32 m' e') (hm : 0 < m')
    (hv : m * 2 ^ e * 2 ^ f32.bias = m' * 2 ^ e' * 2 ^ f64.bias) :
    ∃ (n : Number) (c : Nat) (k : Int), (J.float (.fin neg m e) 32).toBytes = n.text ∧ IsDecimal n neg c k ∧ ShortestDec f32 m' e' c k := by
  obtain ⟨n, c, k, h1, h2, h3⟩ := format_number neg (f := f32) (Or.inl rfl) hc hm
  refine ⟨n, c, k, ?_, h2, h3⟩
  have hr := roundPos_exact f32 m' e' (m * 2 ^ e) (2 ^ f64.bias) (by decide) hc hm (Nat.pow_pos (by decide)) hv
  rw [J.toBytes, h1]
  have hbits : floatBits 32 = 32 := rfl
  unfold formatFloat
  rw [hbits]
  simp only [if_true]
  rw [hr]

/-- **C69, `,string`.** A float field with the option `string` is a text with six digits behind the point: the multiple of 10^-6 nearest
to the float, the even one of two.  (So smaller numbers are lost, unlike in C38.) -/
theorem C69_fixed (x : GoFloat) (info : Option FInfo) (oe : Bool) (hf : Asks info (·.forceString) = true)
    (hz : ¬ (x.isZero ∧ Asks info (·.omitZero) ∧ oe)) :
    (∃ s, marshalFloat64 x info oe = some (.str s) ∧ SixDigits x s) ∧ ∃ s, marshalFloat32 x info oe = some (.str s) ∧ SixDigits x s := by
  simp only [asks_force, asks_zero] at hf hz
  refine ⟨⟨sprintfF x, ?_, sprintfF_six x⟩, sprintfF x, ?_, sprintfF_six x⟩
  · unfold marshalFloat64
    rw [if_neg hz, if_pos hf]
  · unfold marshalFloat32
    rw [if_neg hz, if_pos hf]

/-! Examples: 0.1; 9007199254740993.0 = 2^53 + 1, halfway between two doubles; 1e999; and what is written for the double nearest
to 0.1, for the smallest double, and for the `float32` nearest to 0.1. -/

theorem reads_of_round {c : Nat} {k : Int} {m e : Nat} {f : FFmt} (hp : 2 ≤ f.prec) (h : roundsTo f c k m e = true) : ReadsAs f c k m e :=
  (roundsTo_iff hp c k m e).1 h

def exTenth : Number := ⟨false, [0], some [1], none, by simp, by simp, by simp⟩
def exHalfway : Number := ⟨false, [9, 0, 0, 7, 1, 9, 9, 2, 5, 4, 7, 4, 0, 9, 9, 3], some [0], none, by simp, by simp, by simp⟩
def exHuge : Number := ⟨false, [1], none, some ⟨false, none, [9, 9, 9], by simp⟩, by simp, by simp, by simp⟩

example : exTenth.text = b!"0.1" ∧ exHalfway.text = b!"9007199254740993.0" ∧ exHuge.text = b!"1e999" := by decide +kernel

example : parse b!"0.1" = .ok (.float (.fin false 7205759403792794 1018) 0) := by
  have hr : ReadsAs f64 exTenth.mant exTenth.power 7205759403792794 1018 := reads_of_round (by decide) (by decide +kernel)
  rcases C69_read exTenth (by intro e h; cases h) (by simp [exTenth]) with ⟨m, e, h, h'⟩ | ⟨_, h⟩
  · have := C69_unique hr h'
    rw [this.1, this.2] at h; exact h
  · exact absurd h hr.2

/-- 2^53 + 1 is read as 2^53 (mantissa 2^52, even), not 2^53 + 2 (mantissa 2^52 + 1). -/
example : parse b!"9007199254740993.0" = .ok (.float (.fin false (2 ^ 52) 1075) 0) := by
  have hr : ReadsAs f64 exHalfway.mant exHalfway.power (2 ^ 52) 1075 := reads_of_round (by decide) (by decide +kernel)
  rcases C69_read exHalfway (by intro e h; cases h) (by simp [exHalfway]) with ⟨m, e, h, h'⟩ | ⟨_, h⟩
  · have := C69_unique hr h'
    rw [this.1, this.2] at h; exact h
  · exact absurd h hr.2

example : parse b!"1e999" = .ok (.str b!"1e999") := by
  rcases C69_read exHuge (by intro e h; cases h; decide) (by simp [exHuge]) with ⟨m, e, _, h⟩ | h
  · exfalso
    apply h.2
    unfold TooBig
    decide +kernel
  · exact h.1

example : (J.float (.fin false 7205759403792794 1018) 64).toBytes = b!"0.1" ∧
    Canon f64 7205759403792794 1018 ∧ Canon f64 1 0 ∧ Canon f32 13421773 122 := by decide +kernel

/-- As a `float32`, 0.1 is another number, and is written the same. -/
example : (J.float (.fin false 7205759511166976 1018) 32).toBytes = b!"0.1" ∧
    (7205759511166976 * 2 ^ 1018) * 2 ^ f32.bias = 13421773 * 2 ^ 122 * 2 ^ f64.bias := by decide +kernel

/-- 0.0000001 with the option `string` is lost. -/
example : ∃ info : FInfo, info.forceString = true ∧ marshalFloat64 (.fin false 7555786372591432 998) (some info) true = some (.str b!"0.000000") :=
  ⟨{ name := b!"x", forceString := true }, rfl, by
    have h : sprintfF (.fin false 7555786372591432 998) = b!"0.000000" := by decide +kernel
    simp only [marshalFloat64, optForce, if_true, h]
    rw [if_neg (by simp [GoFloat.isZero])]⟩

end Jsonutils.Props
