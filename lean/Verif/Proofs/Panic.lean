import Verif.Proofs.ParseWF
import Verif.Spec.Panic

/-! The only causes of panics of the parser. -/

set_option linter.unusedSimpArgs false

namespace Jsonutils

theorem EmptyValueInside.mono {s t : Bytes} (h : s <:+ t) (hs : EmptyValueInside s) : EmptyValueInside t := by
  obtain ⟨p, rfl⟩ := h
  obtain ⟨a, d, w, c, post, rfl, h⟩ := hs
  exact ⟨p ++ a, d, w, c, post, by simp, h⟩

theorem SpellsReserved.mono {s t : Bytes} (h : s <:+ t) (hs : SpellsReserved s) : SpellsReserved t := by
  obtain ⟨u, q, r, hu, hp⟩ := hs
  exact ⟨u, q, r, hu.trans h, hp⟩

theorem skipEmpty_split (s : Bytes) : ∃ w, s = w ++ skipEmpty s ∧ ∀ x ∈ w, isWS x = true := by
  induction s with
  | nil => exact ⟨[], rfl, by simp⟩
  | cons c s ih =>
    unfold skipEmpty
    split
    · obtain ⟨w, h1, h2⟩ := ih
      refine ⟨c :: w, by simpa using h1, ?_⟩
      intro x hx
      rcases List.mem_cons.1 hx with rfl | hx
      · assumption
      · exact h2 x hx
    · exact ⟨[], rfl, by simp⟩

theorem parseJSONValue_panic {s : Sess} {c : UInt8} {u : Bytes} {p : PPanic} (hc : isWS c = false)
    (h : parseJSONValue s (c :: u) = .panic p) : p = .index ∧ StopByte c := by
  unfold parseJSONValue at h
  have hcl := parseString_inside (c :: u) (by simp)
  cases hp : parseString (c :: u) with
  | err e r => rw [hp] at h; simp at h
  | panic q => rw [hp] at hcl; exact hcl.elim
  | fuel => rw [hp] at h; simp at h
  | ok a r =>
    obtain ⟨v, q⟩ := a
    rw [hp] at h
    cases q with
    | true => simp at h
    | false =>
      simp only at h
      cases v with
      | nil =>
        have := parseString_token _ _ _ hp
        simp at this h
        have hd := this.2 c u this.1.symm
        refine ⟨h.symm, ?_⟩
        unfold isDelim at hd
        unfold isWS at hc
        unfold StopByte
        simp at hd hc
        rcases hd with ((((((hd | hd) | hd) | hd) | hd) | hd) | hd) | hd <;> simp_all
      | cons d ds =>
        simp only at h
        split at h
        · split at h <;> simp at h
        · simp at h

theorem parse_panic (f : Nat) :
    (∀ s c u p, isWS c = false → parseVal f s (c :: u) = .panic p →
      (p = .index → StopByte c ∨ EmptyValueInside (c :: u)) ∧ (p ≠ .index → SpellsReserved (c :: u))) ∧
    (∀ s rest acc id, (∀ p, parseDict f s rest acc id = .panic p →
      (p = .index → EmptyValueInside rest) ∧ (p ≠ .index → SpellsReserved rest)) ∧
      (∀ m id' s' r, parseDict f s rest acc id = .ok (m, id', s') r → id' = id ∨ SpellsReserved rest)) ∧
    (∀ s rest acc d p, d = 91 ∨ d = 44 → parseArr f s rest acc = .panic p →
      (p = .index → EmptyValueInside (d :: rest)) ∧ (p ≠ .index → SpellsReserved rest)) := by
  induction f with
  | zero => refine ⟨?_, ?_, ?_⟩ <;> intros <;> simp_all [parseVal, parseDict, parseArr]
  | succ f ih =>
    obtain ⟨ihv, ihd, iha⟩ := ih
    refine ⟨?_, ?_, ?_⟩
    · intro s c u p hc h
      rw [parseVal.eq_def] at h
      simp only at h
      split at h
      · rename_i r heq
        simp at heq
        obtain ⟨rfl, rfl⟩ := heq
        cases hp : parseArr f s u [] with
        | ok a r' => rw [hp] at h; simp at h
        | err e r' => rw [hp] at h; simp at h
        | fuel => rw [hp] at h; simp at h
        | panic q =>
          rw [hp] at h
          simp at h; subst h
          have := iha s u [] 91 q (Or.inl rfl) hp
          exact ⟨fun hi => Or.inr (this.1 hi), fun hi => (this.2 hi).mono (List.suffix_cons _ _)⟩
      · rename_i r heq
        simp at heq
        obtain ⟨rfl, rfl⟩ := heq
        have ihd' := ihd s u [] 0
        cases hp : parseDict f s u [] 0 with
        | ok a r' =>
          obtain ⟨m, id', s1⟩ := a
          rw [hp] at h
          simp only at h
          have h2 := ihd'.2 _ _ _ _ hp
          split at h
          · split at h
            · simp at h; subst h
              refine ⟨by simp, fun _ => ?_⟩
              rcases h2 with rfl | h2
              · omega
              · exact h2.mono (List.suffix_cons _ _)
            · simp at h
          · simp at h
        | err e r' => rw [hp] at h; simp at h
        | fuel => rw [hp] at h; simp at h
        | panic q =>
          rw [hp] at h
          simp at h; subst h
          have := ihd'.1 q hp
          exact ⟨fun hi => Or.inr ((this.1 hi).mono (List.suffix_cons _ _)),
            fun hi => (this.2 hi).mono (List.suffix_cons _ _)⟩
      · have := parseJSONValue_panic hc h
        exact ⟨fun _ => Or.inl this.2, fun hi => absurd this.1 hi⟩
    · intro s rest acc id
      rw [parseDict.eq_def]
      simp only
      split
      · refine ⟨by simp, ?_⟩
        intro m id' s' r h; simp at h; exact Or.inl h.1.2.1.symm
      · rename_i c0 t0
        have hsk := skipEmpty_suffix (c0 :: t0)
        split
        · exact ⟨by simp, by simp⟩
        · refine ⟨by simp, ?_⟩
          intro m id' s' r h; simp at h; exact Or.inl h.1.2.1.symm
        · rename_i hnn _
          generalize hr0 : skipEmpty (c0 :: t0) = r0 at *
          have hps := parseString_inside r0 hnn
          cases hp : parseString r0 with
          | err e r => exact ⟨by simp, by simp⟩
          | panic q => rw [hp] at hps; exact hps.elim
          | fuel => exact ⟨by simp, by simp⟩
          | ok a r1 =>
            obtain ⟨key, q⟩ := a
            rw [hp] at hps
            have h1 : r1 <:+ c0 :: t0 := List.IsSuffix.trans hps hsk
            have hsk1 := skipEmpty_suffix r1
            simp only
            split
            · exact ⟨by simp, by simp⟩
            · rename_i c r2 hr2
              rw [hr2] at hsk1
              split
              · rename_i hcol
                subst hcol
                have hsk2 := skipEmpty_split r2
                split
                · exact ⟨by simp, by simp⟩
                · rename_i c3 r3 hr3
                  rw [hr3] at hsk2
                  obtain ⟨w, hw1, hw2⟩ := hsk2
                  have hws := skipEmpty_head hr3
                  have h58 : 58 :: r2 <:+ c0 :: t0 := hsk1.trans h1
                  have h3 : c3 :: r3 <:+ c0 :: t0 := by
                    refine List.IsSuffix.trans ?_ h58
                    rw [hw1]; exact ⟨58 :: w, by simp⟩
                  have hst := parseVal_strict s (c3 :: r3)
                  cases hpv : parseVal f s (c3 :: r3) with
                  | err e r => exact ⟨by simp, by simp⟩
                  | fuel => exact ⟨by simp, by simp⟩
                  | panic q' =>
                    refine ⟨?_, by simp⟩
                    intro p hpp
                    simp at hpp; subst hpp
                    have := ihv s c3 r3 _ hws hpv
                    refine ⟨fun hi => ?_, fun hi => (this.2 hi).mono h3⟩
                    rcases this.1 hi with hst | hin
                    · refine EmptyValueInside.mono h58 ⟨[], 58, w, c3, r3, by simp [hw1], Or.inr (Or.inl rfl), hw2, hst⟩
                    · exact hin.mono h3
                  | ok a r4 =>
                    obtain ⟨v, s'⟩ := a
                    have hsuf : r4 <:+ c3 :: r3 := by
                      have := parseVal_of_fuel (by simp) hpv
                      rw [this] at hst
                      exact hst.1
                    simp only
                    split
                    · rename_i hnone
                      refine ⟨?_, by simp⟩
                      intro p hpp
                      simp at hpp; subst hpp
                      refine ⟨by simp, fun _ => ?_⟩
                      split at hnone
                      · rename_i hk
                        subst hk
                        exact ⟨r0, q, r1, hsk, hp⟩
                      · simp at hnone
                    · rename_i acc' id' hsome
                      have hid : id' = id ∨ SpellsReserved (c0 :: t0) := by
                        split at hsome
                        · rename_i hk
                          subst hk
                          exact Or.inr ⟨r0, q, r1, hsk, hp⟩
                        · simp at hsome; exact Or.inl hsome.2.symm
                      have hsk4 := skipEmpty_suffix r4
                      split
                      · exact ⟨by simp, by simp⟩
                      · rename_i c5 r5 hr5
                        rw [hr5] at hsk4
                        have h5 : r5 <:+ c0 :: t0 :=
                          (List.suffix_cons c5 r5).trans (hsk4.trans (hsuf.trans h3))
                        split
                        · have := ihd s' r5 acc' id'
                          refine ⟨fun p hpp => ⟨fun hi => ((this.1 p hpp).1 hi).mono h5,
                            fun hi => ((this.1 p hpp).2 hi).mono h5⟩, ?_⟩
                          intro m i2 s2 r h
                          rcases this.2 m i2 s2 r h with h | h
                          · subst h; exact hid
                          · exact Or.inr (h.mono h5)
                        · split
                          · refine ⟨by simp, ?_⟩
                            intro m i2 s2 r h
                            simp at h
                            rw [← h.1.2.1]; exact hid
                          · exact ⟨by simp, by simp⟩
              · exact ⟨by simp, by simp⟩
    · intro s rest acc d p hd h
      rw [parseArr.eq_def] at h
      simp only at h
      split at h
      · simp at h
      · rename_i c0 t0
        have hsk := skipEmpty_split (c0 :: t0)
        have hsk' := skipEmpty_suffix (c0 :: t0)
        split at h
        · simp at h
        · simp at h
        · rename_i hnn _
          generalize hr0 : skipEmpty (c0 :: t0) = r0 at *
          cases r0 with
          | nil => exact absurd rfl hnn
          | cons c3 r3 =>
            have hws := skipEmpty_head hr0
            obtain ⟨w, hw1, hw2⟩ := hsk
            have hst := parseVal_strict s (c3 :: r3)
            cases hpv : parseVal f s (c3 :: r3) with
            | err e r => rw [hpv] at h; simp at h
            | fuel => rw [hpv] at h; simp at h
            | panic q' =>
              rw [hpv] at h
              simp at h; subst h
              have := ihv s c3 r3 _ hws hpv
              refine ⟨fun hi => ?_, fun hi => (this.2 hi).mono hsk'⟩
              rcases this.1 hi with hst | hin
              · refine ⟨[], d, w, c3, r3, by simp [hw1], ?_, hw2, hst⟩
                rcases hd with rfl | rfl
                · exact Or.inr (Or.inr rfl)
                · exact Or.inl rfl
              · exact hin.mono (suffix_cons_of hsk')
            | ok a r4 =>
              obtain ⟨v, s'⟩ := a
              have hsuf : r4 <:+ c3 :: r3 := by
                have := parseVal_of_fuel (by simp) hpv
                rw [this] at hst
                exact hst.1
              rw [hpv] at h
              simp only at h
              have hsk4 := skipEmpty_suffix r4
              split at h
              · simp at h
              · rename_i c5 r5 hr5
                rw [hr5] at hsk4
                have h5 : c5 :: r5 <:+ c0 :: t0 := hsk4.trans (hsuf.trans hsk')
                split at h
                · rename_i hc5
                  subst hc5
                  have := iha s' r5 _ 44 p (Or.inr rfl) h
                  exact ⟨fun hi => (this.1 hi).mono (suffix_cons_of h5),
                    fun hi => (this.2 hi).mono ((List.suffix_cons _ _).trans h5)⟩
                · split at h <;> simp at h

theorem parseStream_panic {str : Bytes} {offset : Nat} {p : PPanic} (h : parseStream str offset = .panic p) :
    (p = .index → EmptyValueFirst (str.drop offset) ∨ EmptyValueInside str) ∧ (p ≠ .index → SpellsReserved str) := by
  unfold parseStream at h
  have hsuf : str.drop offset <:+ str := List.drop_suffix offset str
  have hsp := skipEmpty_split (str.drop offset)
  have hsk := (skipEmpty_suffix (str.drop offset)).trans hsuf
  cases hs : skipEmpty (str.drop offset) with
  | nil => rw [hs] at h; simp at h
  | cons c t =>
    rw [hs] at h hsp hsk
    obtain ⟨w, hw1, hw2⟩ := hsp
    simp only at h
    split at h
    · simp at h
    · simp at h
    · rename_i q hp
      simp at h; subst h
      have := (parse_panic _).1 _ _ _ _ (skipEmpty_head hs) hp
      refine ⟨fun hi => ?_, fun hi => (this.2 hi).mono hsk⟩
      rcases this.1 hi with h | h
      · exact Or.inl ⟨w, c, t, hw1, hw2, h⟩
      · exact Or.inr (h.mono hsk)
    · simp at h

end Jsonutils
