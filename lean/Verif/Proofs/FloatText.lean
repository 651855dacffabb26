import Verif.Proofs.FloatShort

/-! The texts of floats as RFC 8259 numbers, with their values. -/

namespace Jsonutils
open Rfc

theorem sign_of_text {n : Number} {neg : Bool} {s : Bytes} (h : n.text = signBytes neg ++ s) (hs : ∀ t, s ≠ 45 :: t) : n.neg = neg := by
  rw [number_text] at h
  obtain ⟨d, t, hdt, hd⟩ := number_head n
  rw [hdt] at h
  cases hn : n.neg <;> cases neg <;> simp only [hn, signBytes, if_true, if_false, Bool.false_eq_true, List.nil_append, List.cons_append] at h
  · rfl
  · simp only [List.cons.injEq] at h
    rw [h.1] at hd; simp [isDigit] at hd
  · exact absurd h.symm (hs _)
  · rfl

theorem split_dot {a b c d : Bytes} (ha : ∀ x ∈ a, isDigit x = true) (hc : ∀ x ∈ c, isDigit x = true) (h : a ++ 46 :: b = c ++ 46 :: d) :
    a = c ∧ b = d := by
  induction a generalizing c with
  | nil =>
    cases c with
    | nil => simpa using h
    | cons y c =>
      simp only [List.nil_append, List.cons_append, List.cons.injEq] at h
      have := hc y (List.mem_cons_self ..)
      rw [← h.1] at this; simp [isDigit] at this
  | cons x a ih =>
    cases c with
    | nil =>
      simp only [List.nil_append, List.cons_append, List.cons.injEq] at h
      have := ha x (List.mem_cons_self ..)
      rw [h.1] at this; simp [isDigit] at this
    | cons y c =>
      simp only [List.cons_append, List.cons.injEq] at h
      have := ih (fun z hz => ha z (List.mem_cons_of_mem _ hz)) (fun z hz => hc z (List.mem_cons_of_mem _ hz)) h.2
      exact ⟨by rw [h.1, this.1], this.2⟩

theorem isDecimal_of_text {n : Number} {neg : Bool} {c : Nat} {k : Int} (h : n.text = signBytes neg ++ decText c k) (he : n.exp = none) :
    IsDecimal n neg c k := by
  obtain ⟨d0, t0, hd0, hdig⟩ := decText_head c k
  have hsign : n.neg = neg := sign_of_text h (by
    intro t ht
    rw [hd0] at ht
    simp only [List.cons.injEq] at ht
    rw [ht.1] at hdig; simp [isDigit] at hdig)
  rw [number_text, hsign, List.append_cancel_left_eq] at h
  have hx : expText n.exp = [] := by rw [he]; rfl
  rw [hx, List.append_nil] at h
  have hpow : n.power = -((n.frac.getD []).length : Int) := by unfold Number.power; rw [he]; simp
  have hint := digitsText_digits n.int
  rcases decText_shape c k with ⟨hk, ds, h1, _, hv⟩ | ⟨hk, a, b, h1, _, hl, hv⟩
  · rw [h1] at h
    have hds := digitsVal_some_digits hv
    have hf : n.frac = none := by
      cases hfr : n.frac with
      | none => rfl
      | some fr =>
        rw [hfr] at h
        have := hds 46 (by rw [← h]; simp [fracText])
        simp [isDigit] at this
    rw [hf] at hpow
    simp only [Option.getD_none, List.length_nil, Int.natCast_zero, Int.neg_zero] at hpow
    refine ⟨hsign, he, ?_, by omega⟩
    rw [hf] at h
    simp only [fracText, List.append_nil] at h
    have hm : n.mant = digitsNat n.int := by unfold Number.mant; rw [hf]; simp
    rw [← h, digitsVal_text0] at hv
    simp only [Option.some.injEq] at hv
    rw [hm, hv, hpow, Int.sub_zero]
  · rw [h1] at h
    have hds := digitsVal_some_digits hv
    cases hfr : n.frac with
    | none =>
      rw [hfr] at h
      simp only [fracText, List.append_nil] at h
      have := hint 46 (by rw [h]; simp)
      simp [isDigit] at this
    | some fr =>
      rw [hfr] at h hpow
      simp only [fracText] at h
      obtain ⟨e1, e2⟩ := split_dot hint (fun x hx => hds x (List.mem_append_left _ hx)) h
      have hlen : fr.length = (-k).toNat := by rw [← hl, ← e2, digitsText_length]
      simp only [Option.getD_some, hlen] at hpow
      have hp : n.power = k := by omega
      refine ⟨hsign, he, ?_, by omega⟩
      have hm : n.mant = digitsNat (n.int ++ fr) := by unfold Number.mant; rw [hfr]; simp
      rw [← e1, ← e2, ← digitsText_append, digitsVal_text0] at hv
      simp only [Option.some.injEq] at hv
      rw [hm, hv, hp, Int.sub_self]
      simp

theorem format_number (neg : Bool) {f : FFmt} (hf : f.prec = 24 ∨ f.prec = 53) {m e : Nat} (hc : Canon f m e) (hm : 0 < m) :
    ∃ (n : Number) (c : Nat) (k : Int), n.text = signBytes neg ++ fmtMag f m e ∧ IsDecimal n neg c k ∧ ShortestDec f m e c k := by
  have hs := shortest_shortest (by omega) hc hm
  obtain ⟨n, hn, he⟩ := decText_number neg (shortest f m e).1 (shortest f m e).2 (shortest_pos f hf m e hc hm)
  refine ⟨n, _, _, ?_, isDecimal_of_text hn he, hs⟩
  unfold fmtMag
  rw [if_neg (by omega)]
  exact hn

theorem mkFloat_reads {neg : Bool} {c : Nat} {k : Int} {x : GoFloat} :
    (if 0 ≤ k then mkFloat neg (c * 10 ^ k.toNat) 1 else mkFloat neg c (10 ^ (-k).toNat)) = some x ↔
      ∃ m e, x = .fin neg m e ∧ ReadsAs f64 c k m e := by
  have hp : 2 ≤ f64.prec := by decide
  have key : (if 0 ≤ k then mkFloat neg (c * 10 ^ k.toNat) 1 else mkFloat neg c (10 ^ (-k).toNat)) =
      mkFloat neg (c * 10 ^ k.toNat) (10 ^ (-k).toNat) := by
    split
    · rename_i h
      have : (-k).toNat = 0 := by omega
      rw [this, Nat.pow_zero]
    · rename_i h
      have : k.toNat = 0 := by omega
      rw [this, Nat.pow_zero, Nat.mul_one]
  rw [key]
  have he : ∀ num den, mkFloat neg num den = Option.map (fun p => GoFloat.fin neg p.1 p.2) (roundPos f64 num den) := fun _ _ => rfl
  rw [he, Option.map_eq_some_iff]
  constructor
  · rintro ⟨⟨m, e⟩, h1, h2⟩
    exact ⟨m, e, h2.symm, (roundPos_iff hp (ten_pos _)).1 h1⟩
  · rintro ⟨m, e, h1, h2⟩
    exact ⟨(m, e), (roundPos_iff hp (ten_pos _)).2 h2, h1.symm⟩

theorem mkFloat_none {neg : Bool} {c : Nat} {k : Int} :
    (if 0 ≤ k then mkFloat neg (c * 10 ^ k.toNat) 1 else mkFloat neg c (10 ^ (-k).toNat)) = none ↔
      TooBig f64 (c * 10 ^ k.toNat) (10 ^ (-k).toNat) := by
  have hp : 2 ≤ f64.prec := by decide
  have key : (if 0 ≤ k then mkFloat neg (c * 10 ^ k.toNat) 1 else mkFloat neg c (10 ^ (-k).toNat)) =
      mkFloat neg (c * 10 ^ k.toNat) (10 ^ (-k).toNat) := by
    split
    · rename_i h
      have : (-k).toNat = 0 := by omega
      rw [this, Nat.pow_zero]
    · rename_i h
      have : k.toNat = 0 := by omega
      rw [this, Nat.pow_zero, Nat.mul_one]
  rw [key]
  have he : ∀ num den, mkFloat neg num den = Option.map (fun p => GoFloat.fin neg p.1 p.2) (roundPos f64 num den) := fun _ _ => rfl
  rw [he, Option.map_eq_none_iff]
  exact roundPos_none hp (ten_pos _)

theorem double_reads (n : Number) (x : GoFloat) : n.double = some x ↔ ∃ m e, x = .fin n.neg m e ∧ ReadsAs f64 n.mant n.power m e := by
  unfold Number.double; exact mkFloat_reads

theorem double_none (n : Number) : n.double = none ↔ TooBig f64 (n.mant * 10 ^ n.power.toNat) (10 ^ (-n.power).toNat) := by
  unfold Number.double; exact mkFloat_none

end Jsonutils
