import Verif.Spec.Text
import Verif.Proofs.DictMore

/-! Conversions between texts, integers and booleans; the collecting utilities. -/

namespace Jsonutils

/-! ### integers -/

theorem digitsVal_eq (s : Bytes) (acc : Nat) (h : ∀ c ∈ s, isDigit c = true) :
    digitsVal s acc = some (s.foldl (fun a c => 10 * a + (c.toNat - 48)) acc) := by
  induction s generalizing acc with
  | nil => rfl
  | cons c s ih =>
    simp only [digitsVal, h c (by simp), if_true, List.foldl_cons]
    rw [ih _ fun d hd => h d (by simp [hd])]
    congr 2
    omega

theorem digitsVal_some (s : Bytes) (acc n : Nat) (h : digitsVal s acc = some n) :
    (∀ c ∈ s, isDigit c = true) ∧ n = s.foldl (fun a c => 10 * a + (c.toNat - 48)) acc := by
  have h1 : ∀ c ∈ s, isDigit c = true := by
    have := (digitsVal_isSome_iff s acc).1 (by rw [h]; rfl)
    exact this
  refine ⟨h1, ?_⟩
  rw [digitsVal_eq s acc h1] at h
  exact (Option.some.inj h).symm

theorem parseInt_iff (s : Bytes) (n : Int) : parseInt s = some n ↔ DecimalText s n ∧ InI64 n := by
  have go : ∀ (neg : Bool) (ds : Bytes), (match ds with
      | [] => none
      | _ => match digitsVal ds 0 with
        | none => none
        | some n =>
          let v : Int := if neg then -(n : Int) else n
          if InI64 v then some v else none) = some n ↔
      (ds ≠ [] ∧ (∀ c ∈ ds, isDigit c = true) ∧ n = (if neg then -(decimalValue ds : Int) else decimalValue ds)) ∧ InI64 n := by
    intro neg ds
    cases ds with
    | nil => simp
    | cons c cs =>
      simp only
      constructor
      · intro h
        cases hd : digitsVal (c :: cs) 0 with
        | none => rw [hd] at h; simp at h
        | some m =>
          rw [hd] at h
          simp only at h
          obtain ⟨h1, h2⟩ := digitsVal_some _ _ _ hd
          by_cases hi : InI64 (if neg = true then -(m : Int) else m)
          · rw [if_pos hi] at h
            have := Option.some.inj h
            subst this
            exact ⟨⟨by simp, h1, by rw [h2]; rfl⟩, hi⟩
          · rw [if_neg hi] at h; simp at h
      · rintro ⟨⟨_, h1, h2⟩, h3⟩
        rw [digitsVal_eq _ _ h1]
        simp only
        subst h2
        exact if_pos h3
  constructor
  · intro h
    unfold parseInt at h
    split at h
    · simp at h
    · obtain ⟨⟨h1, h2, h3⟩, h4⟩ := (go false _).1 h
      simp only [Bool.false_eq_true, if_false] at h3
      exact ⟨h3 ▸ .plus h1 h2, h4⟩
    · obtain ⟨⟨h1, h2, h3⟩, h4⟩ := (go true _).1 h
      simp only [if_true] at h3
      exact ⟨h3 ▸ .minus h1 h2, h4⟩
    · obtain ⟨⟨h1, h2, h3⟩, h4⟩ := (go false _).1 h
      simp only [Bool.false_eq_true, if_false] at h3
      exact ⟨h3 ▸ .plain h1 h2, h4⟩
  · rintro ⟨h, hi⟩
    cases h with
    | plus h1 h2 =>
      unfold parseInt
      exact (go false _).2 ⟨⟨h1, h2, by simp⟩, hi⟩
    | minus h1 h2 =>
      unfold parseInt
      exact (go true _).2 ⟨⟨h1, h2, by simp⟩, hi⟩
    | plain h1 h2 =>
      unfold parseInt
      split
      · exact absurd rfl h1
      · have := h2 43 (by simp); simp [isDigit] at this
      · have := h2 45 (by simp); simp [isDigit] at this
      · exact (go false _).2 ⟨⟨h1, h2, by simp⟩, hi⟩

theorem natDec_head (n : Nat) (hn : n ≠ 0) : ∃ c ds, natDec n = c :: ds ∧ c ≠ 48 := by
  induction n using Nat.strongRecOn with
  | _ n ih =>
    by_cases h : n < 10
    · rw [natDec_lt h]
      refine ⟨_, _, rfl, fun h' => hn ?_⟩
      have := congrArg UInt8.toNat h'
      rw [digitByte_toNat h] at this
      simp at this
      exact this
    · rw [natDec_ge (by omega)]
      obtain ⟨c, ds, h1, h2⟩ := ih (n / 10) (by omega) (by omega)
      exact ⟨c, ds ++ [digitByte (n % 10)], by rw [h1]; rfl, h2⟩

theorem intDec_canonical (n : Int) : CanonicalDecimal (intDec n) := by
  unfold intDec
  by_cases hn : n = 0
  · subst hn; exact Or.inl rfl
  · obtain ⟨c, ds, h1, h2⟩ := natDec_head n.natAbs (by omega)
    have h3 : ∀ d ∈ c :: ds, isDigit d = true := h1 ▸ natDec_digits n.natAbs
    split
    · exact Or.inr (Or.inr ⟨c, ds, by rw [h1], h2, h3⟩)
    · exact Or.inr (Or.inl ⟨c, ds, h1, h2, h3⟩)

/-! ### booleans -/

theorem asciiFold_ascii (c : UInt8) (r : Bytes) (h : c < 128) : asciiFold (c :: r) = c :: asciiFold r := by
  rw [asciiFold.eq_def]
  split
  · rename_i h'; cases h'; exact absurd h (by decide)
  · rename_i h'; cases h'; exact absurd h (by decide)
  · rename_i h'; cases h'; rfl
  · rename_i h'; cases h'

theorem asciiFold_other (d : UInt8) (r : Bytes) (h1 : ∀ r', d = 0xC5 → r = 0xBF :: r' → False)
    (h2 : ∀ r', d = 0xE2 → r = 0x84 :: 0xAA :: r' → False) : asciiFold (d :: r) = d :: asciiFold r := by
  rw [asciiFold.eq_def]
  split
  · rename_i h'; cases h'; exact absurd rfl (fun h => h1 _ rfl h)
  · rename_i h'; cases h'; exact absurd rfl (fun h => h2 _ rfl h)
  · rename_i h'; cases h'; rfl
  · rename_i h'; cases h'

theorem lowerByte_letter {c w : UInt8} (hw : 97 ≤ w ∧ w ≤ 122) (h : c = w ∨ lowerByte c = w) : c < 128 ∧ lowerByte c = w := by
  have h1 : ∀ w : UInt8, w.toNat < 128 → w < 128 := fun w h => UInt8.lt_iff_toNat_lt.2 h
  have hw1 := UInt8.le_iff_toNat_le.1 hw.1
  have hw2 := UInt8.le_iff_toNat_le.1 hw.2
  simp at hw1 hw2
  rcases h with rfl | h
  · refine ⟨h1 c (by omega), ?_⟩
    unfold lowerByte
    rw [if_neg]
    simp only [Bool.and_eq_true, decide_eq_true_eq, UInt8.le_iff_toNat_le]
    simp; omega
  · refine ⟨?_, h⟩
    unfold lowerByte at h
    split at h
    · rename_i hc
      simp only [Bool.and_eq_true, decide_eq_true_eq, UInt8.le_iff_toNat_le] at hc
      simp at hc
      exact h1 c (by omega)
    · subst h; exact h1 c (by omega)

theorem foldsTo_iff (w s : Bytes) (hw : ∀ c ∈ w, 97 ≤ c ∧ c ≤ 122) : foldsTo w s = true ↔ lowerBytes (asciiFold s) = w := by
  induction w generalizing s with
  | nil =>
    simp only [foldsTo, List.isEmpty_iff, lowerBytes, List.map_eq_nil_iff]
    constructor
    · rintro rfl; rfl
    · intro h
      rw [asciiFold.eq_def] at h
      split at h <;> simp_all
  | cons c w ih =>
    have hc := hw c (by simp)
    have ih' := fun s => ih s fun d hd => hw d (by simp [hd])
    cases s with
    | nil => simp [foldsTo, asciiFold, lowerBytes]
    | cons d r =>
      simp only [foldsTo]
      by_cases hd : d = c ∨ lowerByte d = c
      · rw [if_pos hd, ih']
        obtain ⟨h1, h2⟩ := lowerByte_letter hc hd
        rw [asciiFold_ascii d r h1]
        simp only [lowerBytes, List.map_cons, h2, List.cons.injEq, true_and]
      · rw [if_neg hd]
        have hl : lowerByte d ≠ c := fun h => hd (Or.inr h)
        split
        · rename_i r'
          rw [show asciiFold (0xC5 :: 0xBF :: r') = 115 :: asciiFold r' from by rw [asciiFold]]
          simp only [Bool.and_eq_true, beq_iff_eq, ih', lowerBytes, List.map_cons, List.cons.injEq]
          have : lowerByte 115 = 115 := by decide
          rw [this]
          exact ⟨fun h => ⟨h.1.symm, h.2⟩, fun h => ⟨h.1.symm, h.2⟩⟩
        · rename_i r'
          rw [show asciiFold (0xE2 :: 0x84 :: 0xAA :: r') = 107 :: asciiFold r' from by rw [asciiFold]]
          simp only [Bool.and_eq_true, beq_iff_eq, ih', lowerBytes, List.map_cons, List.cons.injEq]
          have : lowerByte 107 = 107 := by decide
          rw [this]
          exact ⟨fun h => ⟨h.1.symm, h.2⟩, fun h => ⟨h.1.symm, h.2⟩⟩
        · rename_i hn1 hn2
          rw [asciiFold_other d r hn1 hn2]
          constructor
          · intro h; simp at h
          · intro h
            simp only [lowerBytes, List.map_cons, List.cons.injEq] at h
            exact absurd h.1 hl

/-! ### pigeonhole for the collecting loops -/

theorem nodup_subset_length {α} [DecidableEq α] (l m : List α) (h : l.Nodup) (hs : ∀ x ∈ l, x ∈ m) : l.length ≤ m.length := by
  induction l generalizing m with
  | nil => simp
  | cons x l ih =>
    have hx := hs x (by simp)
    have := ih (m.erase x) (List.nodup_cons.1 h).2 fun y hy => by
      refine (List.mem_erase_of_ne ?_).2 (hs y (by simp [hy]))
      rintro rfl
      exact (List.nodup_cons.1 h).1 hy
    rw [List.length_erase_of_mem hx] at this
    have : 0 < m.length := List.length_pos_of_mem hx
    simp; omega

theorem indexed_bound {m : SMap J} (key : Nat → Bytes) (hk : ∀ i j, key i = key j → i = j) (n : Nat)
    (h : ∀ i, i < n → (smGet m (key i)).isSome = true) : n ≤ m.length := by
  have := nodup_subset_length ((List.range n).map key) (smKeys m) (by
    unfold List.Nodup
    rw [List.pairwise_map]
    exact (List.nodup_range (n := n)).imp fun h he => h (hk _ _ he)) (by
    intro x hx
    obtain ⟨i, h1, rfl⟩ := List.mem_map.1 hx
    exact (smGet_isSome_iff m _).1 (h i (by simpa using h1)))
  simpa [smKeys] using this

theorem intDec_nat_inj {a b : Nat} (h : intDec (a : Int) = intDec (b : Int)) : a = b := by
  unfold intDec at h
  rw [if_neg (by omega), if_neg (by omega)] at h
  exact natDec_inj (by simpa using h)

theorem get_single (id : Int) (kvs : SMap J) (k : Bytes) :
    (J.dict id kvs).get [k] = match smGet kvs k with
      | some v => .ok v
      | none => .err .keyNotFound := by
  simp only [J.get, dictGet, getLoop]
  cases smGet kvs k <;> rfl

theorem prefixLoop_step (v : J) (pre : Bytes) (f idx : Nat) (acc : List J) (o : J)
    (hg : v.get [pre ++ 46 :: intDec (idx : Nat)] = .ok o) (ho : o ≠ .null) :
    prefixLoop v pre (f + 1) idx acc = prefixLoop v pre f (idx + 1) (acc ++ [o]) := by
  rw [prefixLoop, hg]
  cases o <;> first | exact absurd rfl ho | rfl

theorem prefixLoop_spec (id : Int) (kvs : SMap J) (pre : Bytes) (f idx : Nat) (acc : List J) (hf : idx + f = kvs.length + 1)
    (ha : acc.length = idx)
    (h : ∀ i x, acc[i]? = some x → (J.dict id kvs).get [pre ++ 46 :: intDec (i : Nat)] = .ok x ∧ x ≠ .null) :
    ∃ xs, prefixLoop (.dict id kvs) pre f idx acc = some xs ∧
      (∀ i x, xs[i]? = some x → (J.dict id kvs).get [pre ++ 46 :: intDec (i : Nat)] = .ok x ∧ x ≠ .null) ∧
      ∀ x, (J.dict id kvs).get [pre ++ 46 :: intDec (xs.length : Nat)] = .ok x → x = .null := by
  induction f generalizing idx acc with
  | zero =>
    exfalso
    have := indexed_bound (m := kvs) (fun i => pre ++ 46 :: intDec (i : Nat))
      (fun i j hij => intDec_nat_inj (by simpa using hij)) idx fun i hi => by
        have hx := List.getElem?_eq_getElem (l := acc) (i := i) (by omega)
        have := (h i _ hx).1
        rw [get_single] at this
        cases hg : smGet kvs (pre ++ 46 :: intDec (i : Nat)) with
        | none => rw [hg] at this; simp at this
        | some v => rfl
    omega
  | succ f ih =>
    cases hg : (J.dict id kvs).get [pre ++ 46 :: intDec (idx : Nat)] with
    | err e => exact ⟨acc, by rw [prefixLoop, hg], h, fun x hx => by rw [ha, hg] at hx; simp at hx⟩
    | diverge => exact ⟨acc, by rw [prefixLoop, hg], h, fun x hx => by rw [ha, hg] at hx; simp at hx⟩
    | ok o =>
      by_cases ho : o = .null
      · subst ho
        exact ⟨acc, by rw [prefixLoop, hg], h, fun x hx => by rw [ha, hg] at hx; simp at hx; exact hx.symm⟩
      · rw [prefixLoop_step _ _ _ _ _ _ hg ho]
        refine ih (idx + 1) (acc ++ [o]) (by omega) (by simp [ha]) fun i x hx => ?_
        rw [List.getElem?_append] at hx
        split at hx
        · exact h i x hx
        · rename_i hi
          have : i = acc.length := by
            have := (List.getElem?_eq_some_iff.1 hx).1
            simp at this; omega
          subst this
          simp at hx
          subst hx
          rw [ha]
          exact ⟨hg, ho⟩

theorem indexedStrings_spec (kvs : SMap J) (f idx : Nat) (acc : List Bytes) (hf : idx + f = kvs.length + 1)
    (ha : acc.length = idx)
    (h : ∀ i x, acc[i]? = some x → J.getString (.dict 0 kvs) [intDec (i : Nat)] = .ok x) :
    ∃ xs, indexedStrings kvs f idx acc = some xs ∧
      (∀ i x, xs[i]? = some x → J.getString (.dict 0 kvs) [intDec (i : Nat)] = .ok x) ∧
      ∀ x, J.getString (.dict 0 kvs) [intDec (xs.length : Nat)] ≠ .ok x := by
  induction f generalizing idx acc with
  | zero =>
    exfalso
    have := indexed_bound (m := kvs) (fun i => intDec (i : Nat)) (fun i j hij => intDec_nat_inj hij) idx fun i hi => by
        have hx := List.getElem?_eq_getElem (l := acc) (i := i) (by omega)
        have := h i _ hx
        simp only [J.getString, dictGet, getLoop] at this
        cases hg : smGet kvs (intDec (i : Nat)) with
        | none => rw [hg] at this; simp at this
        | some v => rfl
    omega
  | succ f ih =>
    simp only [indexedStrings]
    cases hg : J.getString (.dict 0 kvs) [intDec (idx : Nat)] with
    | err e => exact ⟨acc, rfl, h, fun x hx => by rw [ha, hg] at hx; simp at hx⟩
    | diverge => exact ⟨acc, rfl, h, fun x hx => by rw [ha, hg] at hx; simp at hx⟩
    | ok o =>
      refine ih (idx + 1) (acc ++ [o]) (by omega) (by simp [ha]) fun i x hx => ?_
      rw [List.getElem?_append] at hx
      split at hx
      · exact h i x hx
      · rename_i hi
        have : i = acc.length := by
          have := (List.getElem?_eq_some_iff.1 hx).1
          simp at this; omega
        subst this
        simp at hx
        subst hx
        rw [ha]
        exact hg

end Jsonutils
