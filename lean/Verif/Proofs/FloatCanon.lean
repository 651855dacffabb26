import Verif.Proofs.Float

/-! `parseFloat` and `floatOfInt` only produce canonical float64 values. -/

set_option linter.unusedSimpArgs false

namespace Jsonutils

theorem roundDiv_le (a b : Nat) : a / b ≤ roundDiv a b ∧ roundDiv a b ≤ a / b + 1 := by
  unfold roundDiv; simp only; split <;> omega

theorem roundPos_canon (f : FFmt) (hp : 0 < f.prec) (num den m e : Nat)
    (h : roundPos f num den = some (m, e)) : Canon f m e := by
  unfold roundPos at h
  simp only at h
  generalize num * 2 ^ f.bias = N at h
  generalize hE : (Nat.log2 (N / den) + 1) - f.prec = E at h
  have hb := roundDiv_le N (den * 2 ^ E)
  rw [← Nat.div_div_eq_div_mul] at hb
  generalize hM : roundDiv N (den * 2 ^ E) = M at h hb
  generalize hq : N / den = q at *
  have hpp : 2 ^ f.prec = 2 * 2 ^ (f.prec - 1) := by
    rw [← Nat.pow_succ']; congr 1; omega
  have hpos : 0 < 2 ^ (f.prec - 1) := Nat.pow_pos (by decide)
  -- bounds on q / 2^E
  have hlt : q / 2 ^ E < 2 ^ f.prec := by
    rw [Nat.div_lt_iff_lt_mul (Nat.pow_pos (by decide)), ← Nat.pow_add]
    by_cases hq0 : q = 0
    · rw [hq0]; exact Nat.pow_pos (by decide)
    · have : q.log2 < f.prec + E := by omega
      exact (Nat.log2_lt hq0).1 this
  have hge : E = 0 ∨ 2 ^ (f.prec - 1) ≤ q / 2 ^ E := by
    by_cases hE0 : E = 0
    · exact Or.inl hE0
    · right
      have hq0 : q ≠ 0 := by rintro rfl; simp at hE; omega
      rw [Nat.le_div_iff_mul_le (Nat.pow_pos (by decide)), ← Nat.pow_add]
      have : f.prec - 1 + E ≤ q.log2 := by omega
      exact (Nat.le_log2 hq0).1 this
  by_cases hMe : M = 2 ^ f.prec
  · simp only [hMe, if_true] at h
    split at h
    · simp at h
    · simp at h
      obtain ⟨rfl, rfl⟩ := h
      exact ⟨by omega, by omega, Or.inr (Nat.le_refl _)⟩
  · simp only [hMe, if_false] at h
    split at h
    · simp at h
    · simp at h
      obtain ⟨rfl, rfl⟩ := h
      refine ⟨by omega, by omega, ?_⟩
      rcases hge with h | h
      · exact Or.inl h
      · exact Or.inr (by omega)

theorem mkFloat_canon {neg : Bool} {num den : Nat} {x : GoFloat} (h : mkFloat neg num den = some x) :
    x.Canonical := by
  have he : mkFloat neg num den = Option.map (fun p => GoFloat.fin neg p.1 p.2) (roundPos f64 num den) := rfl
  rw [he, Option.map_eq_some_iff] at h
  obtain ⟨⟨m, e⟩, h1, rfl⟩ := h
  exact roundPos_canon f64 (by decide) num den m e h1

theorem parseNum_canon {neg hex : Bool} {s d : Bytes} {x : GoFloat} (h : parseNum neg hex s d = some x) :
    x.Canonical := by
  unfold parseNum at h
  simp only at h
  generalize scanMant (if hex = true then 16 else 10) d _ = st at h
  generalize (if hex = true then 2 else 10) = b at h
  generalize (if hex = true then (4 : Int) else 1) = b' at h
  split at h
  · split at h
    · simp at h
    · split at h
      · simp at h
      · split at h
        · exact mkFloat_canon h
        · exact mkFloat_canon h
  · simp at h

theorem parseFloat_canon {s : Bytes} {x : GoFloat} (h : parseFloat s = some x) : x.Canonical := by
  unfold parseFloat at h
  simp only at h
  split at h
  · simp at h; subst h; trivial
  · split at h
    · split at h
      · simp at h
      · simp at h; subst h; trivial
    · split at h
      · exact parseNum_canon h
      · exact parseNum_canon h

theorem floatOfInt_canon (n : Int) : (floatOfInt n).Canonical := by
  unfold floatOfInt
  split
  · show Canon f64 0 0; exact ⟨by decide, by decide, Or.inl rfl⟩
  · split
    · rename_i m e h
      exact roundPos_canon f64 (by decide) _ _ m e h
    · trivial

end Jsonutils
