import Verif.Model.Strconv

/-! Lemmas on decimal integers. -/

namespace Jsonutils

theorem digitByte_toNat {d : Nat} (h : d < 10) : (digitByte d).toNat = 48 + d := by
  unfold digitByte; rw [UInt8.toNat_ofNat']; omega

theorem isDigit_iff (c : UInt8) : isDigit c = true ↔ 48 ≤ c.toNat ∧ c.toNat ≤ 57 := by
  unfold isDigit
  simp [UInt8.le_iff_toNat_le]

theorem isDigit_digitByte {d : Nat} (h : d < 10) : isDigit (digitByte d) = true := by
  rw [isDigit_iff, digitByte_toNat h]; omega

theorem decAux_append (f n : Nat) (acc : Bytes) : decAux f n acc = decAux f n [] ++ acc := by
  induction f generalizing n acc with
  | zero => rfl
  | succ f ih =>
    simp only [decAux]
    split
    · rfl
    · rw [ih (n / 10) (_ :: acc), ih (n / 10) [_]]; simp

/-- enough fuel: any fuel above `n` gives the same digits -/
theorem decAux_fuel (f n : Nat) (h : n < f) (acc : Bytes) : decAux f n acc = decAux (n + 1) n acc := by
  induction n using Nat.strongRecOn generalizing f acc with
  | _ n ih =>
    obtain ⟨f, rfl⟩ : ∃ g, f = g + 1 := ⟨f - 1, by omega⟩
    simp only [decAux]
    split
    · rfl
    · rename_i hne
      have hlt : n / 10 < n := by omega
      rw [ih _ hlt f (by omega), ih _ hlt n (by omega)]

theorem natDec_lt {n : Nat} (h : n < 10) : natDec n = [digitByte n] := by
  have : n / 10 = 0 := by omega
  have h2 : n % 10 = n := by omega
  simp [natDec, decAux, this, h2]

theorem natDec_ge {n : Nat} (h : 10 ≤ n) : natDec n = natDec (n / 10) ++ [digitByte (n % 10)] := by
  have h1 : n / 10 ≠ 0 := by omega
  unfold natDec
  conv => lhs; simp only [decAux]
  rw [if_neg h1, decAux_append, decAux_fuel n (n / 10) (by omega)]

theorem natDec_ne_nil (n : Nat) : natDec n ≠ [] := by
  by_cases h : n < 10
  · simp [natDec_lt h]
  · simp [natDec_ge (by omega : 10 ≤ n)]

theorem natDec_digits (n : Nat) : ∀ c ∈ natDec n, isDigit c = true := by
  induction n using Nat.strongRecOn with
  | _ n ih =>
    by_cases h : n < 10
    · simp [natDec_lt h, isDigit_digitByte h]
    · rw [natDec_ge (by omega)]
      intro c hc
      rcases List.mem_append.1 hc with hc | hc
      · exact ih (n / 10) (by omega) c hc
      · simp at hc; subst hc; exact isDigit_digitByte (by omega)

theorem digitsVal_append (a b : Bytes) (acc : Nat) :
    digitsVal (a ++ b) acc = (digitsVal a acc).bind fun v => digitsVal b v := by
  induction a generalizing acc with
  | nil => rfl
  | cons c cs ih =>
    simp only [List.cons_append, digitsVal]
    split
    · exact ih _
    · rfl

theorem digitsVal_natDec (n : Nat) : digitsVal (natDec n) 0 = some n := by
  induction n using Nat.strongRecOn with
  | _ n ih =>
    by_cases h : n < 10
    · rw [natDec_lt h]
      simp only [digitsVal, isDigit_digitByte h, if_true, digitByte_toNat h]; simp
    · rw [natDec_ge (by omega), digitsVal_append, ih _ (by omega)]
      have h10 : n % 10 < 10 := by omega
      simp only [Option.bind_some, digitsVal, isDigit_digitByte h10, if_true, digitByte_toNat h10]
      congr 1; omega

/-- The accepted value is the accumulated one. -/
theorem digitsVal_isSome_iff (s : Bytes) (acc : Nat) :
    (digitsVal s acc).isSome = true ↔ ∀ c ∈ s, isDigit c = true := by
  induction s generalizing acc with
  | nil => simp [digitsVal]
  | cons c cs ih =>
    simp only [digitsVal]
    split
    · rename_i h; simp [ih, h]
    · rename_i h; simp [h]

theorem natDec_head_ne (n : Nat) (c : UInt8) (cs : Bytes) (h : natDec n = c :: cs) : c ≠ 43 ∧ c ≠ 45 := by
  have : isDigit c = true := natDec_digits n c (by rw [h]; simp)
  rw [isDigit_iff] at this
  constructor <;> (rintro rfl; revert this; decide)

theorem parseInt_natDec (n : Nat) (h : InI64 n) : parseInt (natDec n) = some (n : Int) := by
  have hne := natDec_ne_nil n
  have hv := digitsVal_natDec n
  have hh := natDec_head_ne n
  revert hne hv hh
  generalize natDec n = s
  intro hne hv hh
  match s with
  | [] => exact absurd rfl hne
  | c :: cs =>
    have := hh c cs rfl
    unfold parseInt
    split
    · simp_all
    · simp_all
    · simp_all
    · simp [hv, h]

theorem parseInt_neg (n : Nat) (h : InI64 (-(n : Int))) : parseInt (45 :: natDec n) = some (-(n : Int)) := by
  have hne := natDec_ne_nil n
  have hv := digitsVal_natDec n
  unfold parseInt
  revert hne hv
  generalize natDec n = s
  intro hne hv
  match s with
  | [] => exact absurd rfl hne
  | c :: cs => simp [hv, h]

/-- Integer text round trip. -/
theorem parseInt_intDec (n : Int) (h : InI64 n) : parseInt (intDec n) = some n := by
  unfold intDec
  split
  · rename_i hn
    have e : -((n.natAbs : Nat) : Int) = n := by omega
    rw [parseInt_neg _ (by rw [e]; exact h), e]
  · rename_i hn
    have e : ((n.natAbs : Nat) : Int) = n := by omega
    rw [parseInt_natDec _ (by rw [e]; exact h), e]

theorem intDec_ne_nil (n : Int) : intDec n ≠ [] := by
  unfold intDec; split
  · simp
  · exact natDec_ne_nil _

theorem intDec_chars (n : Int) : ∀ c ∈ intDec n, isDigit c = true ∨ c = 45 := by
  intro c hc
  unfold intDec at hc
  split at hc
  · rcases List.mem_cons.1 hc with rfl | hc
    · exact Or.inr rfl
    · exact Or.inl (natDec_digits _ c hc)
  · exact Or.inl (natDec_digits _ c hc)

theorem natDec_inj {a b : Nat} (h : natDec a = natDec b) : a = b := by
  have := digitsVal_natDec a
  rw [h, digitsVal_natDec b] at this
  exact (Option.some.inj this).symm

theorem intDec_inj {a b : Int} (h : intDec a = intDec b) : a = b := by
  have hd : ∀ n m : Nat, (45 :: natDec n : Bytes) ≠ natDec m := fun n m hc => (natDec_head_ne m 45 (natDec n) hc.symm).2 rfl
  unfold intDec at h
  split at h <;> split at h
  · injection h with _ h; have := natDec_inj h; omega
  · exact absurd h (hd _ _)
  · exact absurd h.symm (hd _ _)
  · have := natDec_inj h; omega

end Jsonutils
