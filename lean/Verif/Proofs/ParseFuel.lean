import Verif.Proofs.Lex

/-! Termination of the parser (fuel is sufficient and irrelevant) and suffix property of the remaining input. -/

set_option linter.unusedSimpArgs false

namespace Jsonutils

theorem parse_good (f : Nat) :
    (∀ s rest, 2 * rest.length + 1 ≤ f → (parseVal f s rest).strict rest) ∧
    (∀ s rest acc id, 2 * rest.length + 2 ≤ f → (parseDict f s rest acc id).inside rest) ∧
    (∀ s rest acc, 2 * rest.length + 2 ≤ f → (parseArr f s rest acc).inside rest) := by
  induction f with
  | zero => refine ⟨?_, ?_, ?_⟩ <;> intros <;> omega
  | succ f ih =>
    obtain ⟨ihv, ihd, iha⟩ := ih
    refine ⟨?_, ?_, ?_⟩
    · intro s rest hf
      rw [parseVal.eq_def]
      simp only
      split
      · rename_i r
        have h1 := iha s r [] (by simp at hf; omega)
        cases h : parseArr f s r [] with
        | ok a r' => rw [h] at h1; exact ⟨suffix_cons_of h1, by have := h1.length_le; simp; omega⟩
        | err e r' => rw [h] at h1; exact suffix_cons_of h1
        | panic p => trivial
        | fuel => rw [h] at h1; exact h1
      · rename_i r
        have h1 := ihd s r [] 0 (by simp at hf; omega)
        cases h : parseDict f s r [] 0 with
        | ok a r' =>
          rw [h] at h1
          have h2 : r' <:+ 123 :: r ∧ r'.length < (123 :: r).length :=
            ⟨suffix_cons_of h1, by have := h1.length_le; simp; omega⟩
          obtain ⟨kvs, id, s'⟩ := a
          simp only
          split
          · split
            · trivial
            · exact h2
          · exact h2
        | err e r' => rw [h] at h1; exact suffix_cons_of h1
        | panic p => trivial
        | fuel => rw [h] at h1; exact h1
      · exact parseJSONValue_strict s rest
    · intro s rest acc id hf
      rw [parseDict.eq_def]
      simp only
      split
      · simp [PR.inside]
      · rename_i c0 t0
        have hsk := skipEmpty_suffix (c0 :: t0)
        split
        · exact List.nil_suffix
        · rename_i r hr
          rw [hr] at hsk
          exact (suffix_cons_of (List.suffix_refl r)).trans hsk
        · rename_i hnn _
          generalize hr0 : skipEmpty (c0 :: t0) = r0 at *
          have hps := parseString_inside r0 hnn
          cases hp : parseString r0 with
          | err e r => rw [hp] at hps; exact hps.trans hsk
          | panic p => trivial
          | fuel => rw [hp] at hps; exact hps
          | ok a r1 =>
            obtain ⟨key, q⟩ := a
            rw [hp] at hps
            have h1 : r1 <:+ c0 :: t0 := List.IsSuffix.trans hps hsk
            have hsk1 := skipEmpty_suffix r1
            simp only
            split
            · exact List.nil_suffix
            · rename_i c r2 hr2
              rw [hr2] at hsk1
              split
              · have hsk2 := skipEmpty_suffix r2
                split
                · exact List.nil_suffix
                · rename_i c3 r3 hr3
                  rw [hr3] at hsk2
                  have h3 : c3 :: r3 <:+ c0 :: t0 :=
                    hsk2.trans (((List.suffix_cons c r2).trans hsk1).trans h1)
                  have hv := ihv s (c3 :: r3) (by
                    have := h3.length_le; omega)
                  cases hpv : parseVal f s (c3 :: r3) with
                  | err e r => rw [hpv] at hv; exact List.IsSuffix.trans hv h3
                  | panic p => trivial
                  | fuel => rw [hpv] at hv; exact hv
                  | ok a r4 =>
                    obtain ⟨v, s'⟩ := a
                    rw [hpv] at hv
                    obtain ⟨hv1, hv2⟩ := hv
                    simp only
                    split
                    · trivial
                    · rename_i acc' id' _
                      have hsk4 := skipEmpty_suffix r4
                      split
                      · exact List.nil_suffix
                      · rename_i c5 r5 hr5
                        rw [hr5] at hsk4
                        have h5 : c5 :: r5 <:+ c0 :: t0 := hsk4.trans (hv1.trans h3)
                        have h5' := (List.suffix_cons c5 r5).trans h5
                        split
                        · refine PR.inside_mono h5' (ihd s' r5 acc' id' ?_)
                          have := h5.length_le
                          simp at this hf ⊢; omega
                        · split
                          · exact h5'
                          · exact h5
              · exact hsk1.trans h1
    · intro s rest acc hf
      rw [parseArr.eq_def]
      simp only
      split
      · simp [PR.inside]
      · rename_i c0 t0
        have hsk := skipEmpty_suffix (c0 :: t0)
        split
        · exact List.nil_suffix
        · rename_i r hr
          rw [hr] at hsk
          exact (suffix_cons_of (List.suffix_refl r)).trans hsk
        · rename_i hnn _
          generalize hr0 : skipEmpty (c0 :: t0) = r0 at *
          have hv := ihv s r0 (by have := hsk.length_le; omega)
          cases hpv : parseVal f s r0 with
          | err e r => rw [hpv] at hv; exact List.IsSuffix.trans hv hsk
          | panic p => trivial
          | fuel => rw [hpv] at hv; exact hv
          | ok a r4 =>
            obtain ⟨v, s'⟩ := a
            rw [hpv] at hv
            obtain ⟨hv1, hv2⟩ := hv
            simp only
            have hsk4 := skipEmpty_suffix r4
            split
            · exact List.nil_suffix
            · rename_i c5 r5 hr5
              rw [hr5] at hsk4
              have h5 : c5 :: r5 <:+ c0 :: t0 := hsk4.trans (hv1.trans hsk)
              have h5' := (List.suffix_cons c5 r5).trans h5
              split
              · refine PR.inside_mono h5' (iha s' r5 _ ?_)
                have := h5.length_le
                simp at this hf ⊢; omega
              · split
                · exact h5'
                · exact h5

/-- More fuel does not change a result that did not run out of fuel. -/
theorem parse_mono (f : Nat) :
    (∀ s rest, parseVal f s rest ≠ .fuel → parseVal (f + 1) s rest = parseVal f s rest) ∧
    (∀ s rest acc id, parseDict f s rest acc id ≠ .fuel → parseDict (f + 1) s rest acc id = parseDict f s rest acc id) ∧
    (∀ s rest acc, parseArr f s rest acc ≠ .fuel → parseArr (f + 1) s rest acc = parseArr f s rest acc) := by
  induction f with
  | zero => refine ⟨?_, ?_, ?_⟩ <;> intros <;> simp_all [parseVal, parseDict, parseArr]
  | succ f ih =>
    obtain ⟨ihv, ihd, iha⟩ := ih
    refine ⟨?_, ?_, ?_⟩
    · intro s rest hne
      rw [parseVal.eq_def (f + 1)] at hne
      rw [parseVal.eq_def (f + 1 + 1), parseVal.eq_def (f + 1)]
      simp only at hne ⊢
      split
      · rw [iha]
        intro h; simp only [h] at hne; exact hne rfl
      · rw [ihd]
        intro h; simp only [h] at hne; exact hne rfl
      · rfl
    · intro s rest acc id hne
      rw [parseDict.eq_def (f + 1)] at hne
      rw [parseDict.eq_def (f + 1 + 1), parseDict.eq_def (f + 1)]
      simp only at hne ⊢
      cases rest with
      | nil => rfl
      | cons c0 t0 =>
        simp only at hne ⊢
        split
        · rfl
        · rfl
        · rename_i h1 h2
          generalize skipEmpty (c0 :: t0) = r0 at *
          split at hne
          · exact absurd rfl h1
          · exact absurd rfl (h2 _)
          cases hp : parseString r0 with
          | err e r => rfl
          | panic p => rfl
          | fuel => rfl
          | ok a r1 =>
            obtain ⟨key, q⟩ := a
            simp only [hp] at hne ⊢
            cases hs1 : skipEmpty r1 with
            | nil => rfl
            | cons c r2 =>
              simp only [hs1] at hne ⊢
              by_cases hc : c = 58
              · simp only [hc, if_true] at hne ⊢
                cases hs2 : skipEmpty r2 with
                | nil => rfl
                | cons c3 r3 =>
                  simp only [hs2] at hne ⊢
                  have hv : parseVal f s (c3 :: r3) ≠ .fuel := by
                    intro h; simp only [h] at hne; exact hne rfl
                  rw [ihv _ _ hv]
                  cases hpv : parseVal f s (c3 :: r3) with
                  | err e r => rfl
                  | panic p => rfl
                  | fuel => rfl
                  | ok a r4 =>
                    obtain ⟨v, s'⟩ := a
                    simp only [hpv] at hne ⊢
                    split
                    · rfl
                    · rename_i acc' id' he
                      simp only [he] at hne
                      cases hs4 : skipEmpty r4 with
                      | nil => rfl
                      | cons c5 r5 =>
                        simp only [hs4] at hne ⊢
                        by_cases h5 : c5 = 44
                        · simp only [h5, if_true] at hne ⊢
                          exact ihd _ _ _ _ hne
                        · simp only [h5, if_false]
              · simp only [hc, if_false]
    · intro s rest acc hne
      rw [parseArr.eq_def (f + 1)] at hne
      rw [parseArr.eq_def (f + 1 + 1), parseArr.eq_def (f + 1)]
      simp only at hne ⊢
      cases rest with
      | nil => rfl
      | cons c0 t0 =>
        simp only at hne ⊢
        split
        · rfl
        · rfl
        · rename_i h1 h2
          generalize skipEmpty (c0 :: t0) = r0 at *
          split at hne
          · exact absurd rfl h1
          · exact absurd rfl (h2 _)
          have hv : parseVal f s r0 ≠ .fuel := by
            intro h; simp only [h] at hne; exact hne rfl
          rw [ihv _ _ hv]
          cases hpv : parseVal f s r0 with
          | err e r => rfl
          | panic p => rfl
          | fuel => rfl
          | ok a r4 =>
            obtain ⟨v, s'⟩ := a
            simp only [hpv] at hne ⊢
            cases hs4 : skipEmpty r4 with
            | nil => rfl
            | cons c5 r5 =>
              simp only [hs4] at hne ⊢
              by_cases h5 : c5 = 44
              · simp only [h5, if_true] at hne ⊢
                exact iha _ _ _ hne
              · simp only [h5, if_false]

theorem parseVal_fuel_le {f g : Nat} (hfg : f ≤ g) (s : Sess) (rest : Bytes) (h : parseVal f s rest ≠ .fuel) :
    parseVal g s rest = parseVal f s rest := by
  induction hfg with
  | refl => rfl
  | step _ ih =>
    rw [(parse_mono _).1 s rest (by rw [ih]; exact h), ih]

theorem parseDict_fuel_le {f g : Nat} (hfg : f ≤ g) (s : Sess) (rest : Bytes) (acc id)
    (h : parseDict f s rest acc id ≠ .fuel) : parseDict g s rest acc id = parseDict f s rest acc id := by
  induction hfg with
  | refl => rfl
  | step _ ih =>
    rw [(parse_mono _).2.1 s rest acc id (by rw [ih]; exact h), ih]

theorem parseArr_fuel_le {f g : Nat} (hfg : f ≤ g) (s : Sess) (rest : Bytes) (acc)
    (h : parseArr f s rest acc ≠ .fuel) : parseArr g s rest acc = parseArr f s rest acc := by
  induction hfg with
  | refl => rfl
  | step _ ih =>
    rw [(parse_mono _).2.2 s rest acc (by rw [ih]; exact h), ih]

theorem parseVal_strict (s : Sess) (rest : Bytes) : (parseVal (parseFuel rest) s rest).strict rest :=
  (parse_good _).1 s rest (by unfold parseFuel; omega)

theorem parseVal_ne_fuel (s : Sess) (rest : Bytes) : parseVal (parseFuel rest) s rest ≠ .fuel := by
  intro h; have := parseVal_strict s rest; rw [h] at this; exact this

/-- A result obtained with any fuel is the result with the standard fuel. -/
theorem parseVal_of_fuel {f : Nat} {s : Sess} {rest : Bytes} {x : PR (J × Sess)} (hx : x ≠ .fuel)
    (h : parseVal f s rest = x) : parseVal (parseFuel rest) s rest = x := by
  by_cases hf : f ≤ parseFuel rest
  · rw [parseVal_fuel_le hf s rest (by rw [h]; exact hx), h]
  · rw [← parseVal_fuel_le (by omega : parseFuel rest ≤ f) s rest (parseVal_ne_fuel s rest), h]

end Jsonutils
