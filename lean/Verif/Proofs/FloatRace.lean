import Verif.Model.FloatRace

/-! # Lemmas about concurrent `JSONFloat.String` -/

namespace Jsonutils

/-- Invariant: the field is the original one or 64 (and then the original is neither 32 nor 64 or already 64); a
goroutine past the test sees a settled width; finished texts are the sequential one. -/
def StrInv (x : GoFloat) (bit0 : Nat) (s : StrState) : Prop :=
  (s.bit = bit0 ∨ s.bit = floatBits bit0) ∧
  ∀ pc ∈ s.pcs, match pc with
    | .first => True
    | .second => bit0 ≠ 32
    | .write => bit0 ≠ 32 ∧ bit0 ≠ 64
    | .last => s.bit = floatBits bit0
    | .done t => t = formatFloat x (floatBits bit0) ∧ s.bit = floatBits bit0

theorem floatBits_idem (b : Nat) : floatBits (floatBits b) = floatBits b := by
  unfold floatBits; split <;> simp_all

theorem strStep_inv {x : GoFloat} {bit0 : Nat} {s : StrState} (h : StrInv x bit0 s) (i : Nat) :
    StrInv x bit0 (s.run1 x i) := by
  unfold StrState.run1
  cases hi : s.pcs[i]? with
  | none => exact h
  | some pc =>
    have hmem : pc ∈ s.pcs := List.mem_of_getElem? hi
    obtain ⟨hb, hp⟩ := h
    have hpc := hp pc hmem
    have key : ∀ (b : Nat) (q : StrPC), (b = bit0 ∨ b = floatBits bit0) →
        (s.bit = floatBits bit0 → b = floatBits bit0) →
        (match q with
          | .first => True
          | .second => bit0 ≠ 32
          | .write => bit0 ≠ 32 ∧ bit0 ≠ 64
          | .last => b = floatBits bit0
          | .done t => t = formatFloat x (floatBits bit0) ∧ b = floatBits bit0) →
        StrInv x bit0 ⟨b, s.pcs.set i q⟩ := by
      intro b q h1 h2 h3
      refine ⟨h1, fun pc' hm => ?_⟩
      rcases List.mem_or_eq_of_mem_set hm with hm | rfl
      · have := hp pc' hm
        cases pc' with
        | first => trivial
        | second => exact this
        | write => exact this
        | last => exact h2 this
        | done t => exact ⟨this.1, h2 this.2⟩
      · exact h3
    cases pc with
    | first =>
      simp only [strStep]
      split
      · rename_i h32
        refine key _ _ hb id ?_
        show bit0 ≠ 32
        rintro rfl
        rcases hb with hb | hb <;> simp_all [floatBits]
      · rename_i h32
        refine key _ _ hb id ?_
        show s.bit = floatBits bit0
        rcases hb with hb | hb
        · simp only [Decidable.not_not] at h32
          rw [hb] at h32; rw [hb, h32]; rfl
        · exact hb
    | second =>
      have hpc : bit0 ≠ 32 := hpc
      simp only [strStep]
      split
      · rename_i h64
        refine key _ _ hb id ?_
        show bit0 ≠ 32 ∧ bit0 ≠ 64
        refine ⟨hpc, ?_⟩
        rintro rfl
        rcases hb with hb | hb <;> simp_all [floatBits]
      · rename_i h64
        simp only [Decidable.not_not] at h64
        refine key _ _ hb id ?_
        show s.bit = floatBits bit0
        rcases hb with hb | hb
        · rw [hb] at h64; rw [hb, h64]; rfl
        · exact hb
    | write =>
      have hpc : bit0 ≠ 32 ∧ bit0 ≠ 64 := hpc
      have : (64 : Nat) = floatBits bit0 := by unfold floatBits; rw [if_pos hpc]
      exact key 64 .last (Or.inr this) (fun _ => this) this
    | last =>
      have hpc : s.bit = floatBits bit0 := hpc
      refine key _ _ hb id ⟨?_, hpc⟩
      rw [hpc]
    | done t => exact key _ _ hb id hpc

theorem strRun_inv {x : GoFloat} {bit0 : Nat} (sched : List Nat) : ∀ {s : StrState}, StrInv x bit0 s →
    StrInv x bit0 (s.run x sched) := by
  induction sched with
  | nil => intro s h; exact h
  | cons i r ih => intro s h; exact ih (strStep_inv h i)

theorem strInit_inv (x : GoFloat) (bit0 n : Nat) : StrInv x bit0 (strInit bit0 n) := by
  refine ⟨Or.inl rfl, fun pc hm => ?_⟩
  rw [List.eq_of_mem_replicate hm]
  trivial

/-- Steps a goroutine still needs at most. -/
def StrPC.left : StrPC → Nat
  | .first => 4
  | .second => 3
  | .write => 2
  | .last => 1
  | .done _ => 0

theorem strStep_left (x : GoFloat) (bit : Nat) (pc : StrPC) : (strStep x bit pc).2.left ≤ pc.left - 1 := by
  cases pc <;> simp only [strStep] <;> (try split) <;> simp [StrPC.left]

theorem run1_pcs_length (x : GoFloat) (s : StrState) (i : Nat) : (s.run1 x i).pcs.length = s.pcs.length := by
  unfold StrState.run1
  split <;> simp

theorem run_left (x : GoFloat) (sched : List Nat) : ∀ (s : StrState) (i : Nat) (pc : StrPC), s.pcs[i]? = some pc →
    ∃ pc', (s.run x sched).pcs[i]? = some pc' ∧ pc'.left ≤ pc.left - sched.count i := by
  induction sched with
  | nil => intro s i pc h; exact ⟨pc, h, by simp⟩
  | cons j r ih =>
    intro s i pc h
    by_cases hj : j = i
    · subst hj
      have h1 : (s.run1 x j).pcs[j]? = some (strStep x s.bit pc).2 := by
        unfold StrState.run1
        rw [h]
        have hlt : j < s.pcs.length := (List.getElem?_eq_some_iff.1 h).1
        simp [hlt]
      obtain ⟨pc', h2, h3⟩ := ih _ _ _ h1
      refine ⟨pc', h2, ?_⟩
      have := strStep_left x s.bit pc
      rw [List.count_cons_self]; omega
    · have h1 : (s.run1 x j).pcs[i]? = some pc := by
        unfold StrState.run1
        split
        · exact h
        · simp [hj, h]
      obtain ⟨pc', h2, h3⟩ := ih _ _ _ h1
      refine ⟨pc', h2, ?_⟩
      rw [List.count_cons_of_ne hj]; omega

end Jsonutils
