import Verif.Model.Embedded
import Verif.Spec.Unmarshal

/-! What `Unmarshal` does to embedded pointers. -/

namespace Jsonutils

variable {parent : Nat → Option Nat} {idx : Bytes → List Nat} {tys : List (FInfo × Ty)} {assign : Ty → UV → URes}

theorem enter_fields (s : EVar) (i : Nat) : (s.enter parent i).fields = s.fields := by
  unfold EVar.enter
  split
  · rfl
  · split <;> rfl

theorem enter_alive (s : EVar) (i p : Nat) : p ∈ (s.enter parent i).alive ↔ p ∈ s.alive ∨ parent i = some p := by
  unfold EVar.enter
  split
  · rename_i h; simp [h]
  · rename_i q h
    split
    · rename_i hq
      rw [h]
      constructor
      · exact .inl
      · rintro (h' | h')
        · exact h'
        · cases h'; exact hq
    · rw [h]
      simp only [List.mem_cons, Option.some.injEq]
      constructor
      · rintro (rfl | h') <;> simp [*]
      · rintro (h' | rfl) <;> simp [*]

/-! ### The fields are those of the flat model -/

theorem setLoopE_flat {again : Bytes → List Bytes → EVar → Option (EVar × List Bytes × Option UErr)}
    {again' : Bytes → List Bytes → List UV → Option (List UV × List Bytes × Option UErr)}
    (hag : ∀ k vis s, (again k vis s).map (fun p => (p.1.fields, p.2)) = again' k vis s.fields) : ∀ (is : List Nat) (vis : List Bytes) (s : EVar),
      (setLoopE parent tys assign again is vis s).map (fun p => (p.1.fields, p.2)) = setLoop tys assign again' is vis s.fields
  | [], vis, s => rfl
  | i :: is, vis, s => by
    simp only [setLoopE, setLoop, enter_fields]
    cases tys[i]? with
    | none => rfl
    | some q =>
      obtain ⟨info, t⟩ := q
      cases s.fields[i]? with
      | none => rfl
      | some v =>
        simp only
        cases assign t v with
        | none => rfl
        | some r =>
          obtain ⟨v', e⟩ := r
          cases e with
          | some e => rfl
          | none =>
            simp only
            cases info.deprecatedBy with
            | none => exact setLoopE_flat hag is vis _
            | some k =>
              simp only
              have h1 := hag k vis ⟨s.fields.set i v', (s.enter parent i).alive⟩
              simp only at h1
              rw [← h1]
              cases again k vis ⟨s.fields.set i v', (s.enter parent i).alive⟩ with
              | none => rfl
              | some r =>
                obtain ⟨s3, vis1, e⟩ := r
                cases e with
                | some e => rfl
                | none => exact setLoopE_flat hag is vis1 s3

theorem setKeyE_flat : ∀ (f : Nat) (key : Bytes) (vis : List Bytes) (s : EVar),
    (setKeyE parent idx tys assign f key vis s).map (fun p => (p.1.fields, p.2)) = setKey idx tys assign f key vis s.fields
  | 0, _, _, _ => rfl
  | f + 1, key, vis, s => by
    simp only [setKeyE, setKey]
    split
    · rfl
    · exact setLoopE_flat (setKeyE_flat f) _ _ _

theorem unmE_flat {P : UEnv} {n : Nat} : ∀ (kvs : List (Bytes × J)) (s : EVar),
    (unmE parent P n kvs s).map (fun p => (p.1.fields, p.2)) = J.unmf P kvs n s.fields
  | [], s => rfl
  | (k, j) :: r, s => by
    simp only [unmE, J.unmf]
    rw [← setKeyE_flat (parent := parent)]
    cases setKeyE parent (P.idx n) (P.defs.getD n []) (fun t v => J.unm P j t v) ((P.defs.getD n []).length + 2) k [] s with
    | none => rfl
    | some q =>
      obtain ⟨s', vis, e⟩ := q
      simp only [Option.map_some]
      rw [← unmE_flat r s']
      cases unmE parent P n r s' <;> rfl

/-! ### What is allocated -/

/-- What holds between a variable before and after, when the fields in `T` could be reached. -/
structure EStep (parent : Nat → Option Nat) (T : Nat → Prop) (s s' : EVar) : Prop where
  keep : ∀ p ∈ s.alive, p ∈ s'.alive
  only : ∀ p ∈ s'.alive, p ∈ s.alive ∨ ∃ i, T i ∧ parent i = some p
  safe : ∀ i p, parent i = some p → p ∈ s'.alive ∨ s'.fields[i]? = s.fields[i]?

theorem EStep.refl (T : Nat → Prop) (s : EVar) : EStep parent T s s := ⟨fun _ h => h, fun _ h => .inl h, fun _ _ _ => .inr rfl⟩

theorem EStep.trans {T : Nat → Prop} {a b c : EVar} (h1 : EStep parent T a b) (h2 : EStep parent T b c) : EStep parent T a c :=
  ⟨fun p h => h2.keep p (h1.keep p h), fun p h => (h2.only p h).elim (h1.only p) .inr,
    fun i p h => (h2.safe i p h).elim .inl fun g => (h1.safe i p h).elim (fun g' => .inl (h2.keep p g')) fun g' => .inr (g.trans g')⟩

theorem EStep.mono {T T' : Nat → Prop} (h : ∀ i, T i → T' i) {a b : EVar} (h1 : EStep parent T a b) : EStep parent T' a b :=
  ⟨h1.keep, fun p hp => (h1.only p hp).imp id fun ⟨i, h2, h3⟩ => ⟨i, h i h2, h3⟩, h1.safe⟩

theorem EStep.set {T : Nat → Prop} (s : EVar) (i : Nat) (v : UV) (hi : T i) :
    EStep parent T s { (s.enter parent i) with fields := (s.enter parent i).fields.set i v } := by
  refine ⟨fun p h => (enter_alive s i p).2 (.inl h), fun p h => ((enter_alive s i p).1 h).imp id fun h' => ⟨i, hi, h'⟩, fun j p h => ?_⟩
  by_cases hj : i = j
  · subst hj; exact .inl ((enter_alive s i p).2 (.inr h))
  · exact .inr (by simp only [enter_fields]; exact List.getElem?_set_ne hj)

theorem setKeyE_step : ∀ (f : Nat) (key : Bytes) (vis : List Bytes) (s : EVar) p, setKeyE parent idx tys assign f key vis s = some p →
    EStep parent (Touches idx tys key) s p.1
  | 0, _, _, _, _, h => by simp [setKeyE] at h
  | f + 1, key, vis, s, p, h => by
    simp only [setKeyE] at h
    split at h
    · cases h; exact .refl _ _
    · -- fields reached directly
      have : ∀ (is : List Nat), (∀ i ∈ is, i ∈ idx key) → ∀ vis s p, setLoopE parent tys assign (setKeyE parent idx tys assign f) is vis s = some p →
          EStep parent (Touches idx tys key) s p.1 := by
        intro is
        induction is with
        | nil => intro _ vis s p h; simp only [setLoopE, Option.some.injEq] at h; subst h; exact .refl _ _
        | cons i is ih =>
          intro hin vis s p h
          have hi := hin i (List.mem_cons_self ..)
          have hin' : ∀ j ∈ is, j ∈ idx key := fun j hj => hin j (List.mem_cons_of_mem _ hj)
          simp only [setLoopE] at h
          split at h
          · rename_i info t v hty hv
            split at h
            · cases h
            · cases h; exact .set s i _ (.here hi)
            · rename_i v' _
              have h0 := EStep.set (parent := parent) s i v' (Touches.here (tys := tys) hi)
              split at h
              · exact h0.trans (ih hin' vis _ p h)
              · rename_i k hk
                split at h
                · cases h
                · rename_i s3 vis1 e hr
                  cases h
                  exact h0.trans ((setKeyE_step f k _ _ _ hr).mono fun j hj => .there hi hty hk hj)
                · rename_i s3 vis1 hr
                  exact h0.trans (((setKeyE_step f k _ _ _ hr).mono fun j hj => .there hi hty hk hj).trans (ih hin' vis1 _ p h))
          · cases h
      exact this _ (fun _ h => h) _ _ _ h

/-! ### Everything that is reached is allocated -/

/-- Key `k` is dealt with: its fields belong to allocated structs, and the keys they lead to have been visited. -/
def DoneE (parent : Nat → Option Nat) (idx : Bytes → List Nat) (tys : List (FInfo × Ty)) (vis : List Bytes) (s : EVar) (is : List Nat) : Prop :=
  ∀ i ∈ is, (∀ p, parent i = some p → p ∈ s.alive) ∧ ∀ info t k, tys[i]? = some (info, t) → info.deprecatedBy = some k → k ∈ vis

theorem DoneE.mono {vis vis' : List Bytes} {s s' : EVar} {is : List Nat} (h : DoneE parent idx tys vis s is) (h1 : ∀ k ∈ vis, k ∈ vis')
    (h2 : ∀ p ∈ s.alive, p ∈ s'.alive) : DoneE parent idx tys vis' s' is :=
  fun i hi => ⟨fun p hp => h2 p ((h i hi).1 p hp), fun info t k a b => h1 k ((h i hi).2 info t k a b)⟩

/-- After a call without error. -/
structure EDone (parent : Nat → Option Nat) (idx : Bytes → List Nat) (tys : List (FInfo × Ty)) (vis : List Bytes) (s : EVar) (vis' : List Bytes) (s' : EVar) : Prop where
  grow : ∀ k ∈ vis, k ∈ vis'
  keep : ∀ p ∈ s.alive, p ∈ s'.alive
  done : ∀ k ∈ vis', k ∈ vis ∨ DoneE parent idx tys vis' s' (idx k)

theorem EDone.trans {v1 v2 v3 : List Bytes} {a b c : EVar} (h1 : EDone parent idx tys v1 a v2 b) (h2 : EDone parent idx tys v2 b v3 c) : EDone parent idx tys v1 a v3 c :=
  ⟨fun k h => h2.grow k (h1.grow k h), fun p h => h2.keep p (h1.keep p h),
    fun k h => (h2.done k h).elim (fun g => (h1.done k g).imp id fun g' => g'.mono h2.grow h2.keep) .inr⟩

theorem setLoopE_done {again : Bytes → List Bytes → EVar → Option (EVar × List Bytes × Option UErr)}
    (hag : ∀ k vis s s' vis', again k vis s = some (s', vis', none) → k ∈ vis' ∧ EDone parent idx tys vis s vis' s') :
    ∀ (is : List Nat) (vis : List Bytes) (s s' : EVar) (vis' : List Bytes), setLoopE parent tys assign again is vis s = some (s', vis', none) →
      EDone parent idx tys vis s vis' s' ∧ DoneE parent idx tys vis' s' is
  | [], vis, s, s', vis', h => by
    simp only [setLoopE, Option.some.injEq, Prod.mk.injEq] at h
    obtain ⟨rfl, rfl, _⟩ := h
    exact ⟨⟨fun _ h => h, fun _ h => h, fun _ h => .inl h⟩, fun i hi => by cases hi⟩
  | i :: is, vis, s, s', vis', h => by
    simp only [setLoopE] at h
    split at h
    · rename_i info t v hty hv
      split at h
      · cases h
      · cases h
      · rename_i v' _
        have h0 : EDone parent idx tys vis s vis { (s.enter parent i) with fields := (s.enter parent i).fields.set i v' } :=
          ⟨fun _ h => h, fun p h => (enter_alive s i p).2 (.inl h), fun _ h => .inl h⟩
        have hp : ∀ p, parent i = some p → p ∈ (s.enter parent i).alive := fun p hp => (enter_alive s i p).2 (.inr hp)
        split at h
        · rename_i hd
          obtain ⟨g1, g2⟩ := setLoopE_done hag is vis _ s' vis' h
          refine ⟨h0.trans g1, fun j hj => ?_⟩
          rcases List.mem_cons.1 hj with rfl | hj
          · refine ⟨fun p h' => g1.keep p (hp p h'), fun info' t' k' a b => ?_⟩
            rw [hty] at a; cases a; rw [hd] at b; cases b
          · exact g2 j hj
        · rename_i k hk
          split at h
          · cases h
          · cases h
          · rename_i s3 vis1 hr
            obtain ⟨k1, k2⟩ := hag k _ _ _ _ hr
            obtain ⟨g1, g2⟩ := setLoopE_done hag is vis1 s3 s' vis' h
            refine ⟨h0.trans (k2.trans g1), fun j hj => ?_⟩
            rcases List.mem_cons.1 hj with rfl | hj
            · refine ⟨fun p h' => g1.keep p (k2.keep p (hp p h')), fun info' t' k' a b => ?_⟩
              rw [hty] at a; cases a; rw [hk] at b; cases b
              exact g1.grow k k1
            · exact g2 j hj
    · cases h

theorem setKeyE_done : ∀ (f : Nat) (k : Bytes) (vis : List Bytes) (s s' : EVar) (vis' : List Bytes), setKeyE parent idx tys assign f k vis s = some (s', vis', none) →
    k ∈ vis' ∧ EDone parent idx tys vis s vis' s'
  | 0, _, _, _, _, _, h => by simp [setKeyE] at h
  | f + 1, k, vis, s, s', vis', h => by
    simp only [setKeyE] at h
    split at h
    · rename_i hk
      cases h
      exact ⟨hk, fun _ h => h, fun _ h => h, fun _ h => .inl h⟩
    · obtain ⟨g1, g2⟩ := setLoopE_done (setKeyE_done f) _ _ _ _ _ h
      refine ⟨g1.grow k (List.mem_cons_self ..), fun k' h' => g1.grow k' (List.mem_cons_of_mem _ h'), g1.keep, fun k' h' => ?_⟩
      rcases g1.done k' h' with h2 | h2
      · rcases List.mem_cons.1 h2 with rfl | h2
        · exact .inr g2
        · exact .inl h2
      · exact .inr h2

/-- After a key was handled without error, every field it leads to belongs to an allocated struct. -/
theorem setKeyE_reached {f : Nat} {k : Bytes} {s s' : EVar} {vis' : List Bytes} (h : setKeyE parent idx tys assign f k [] s = some (s', vis', none)) {i : Nat}
    (ht : Touches idx tys k i) {p : Nat} (hp : parent i = some p) : p ∈ s'.alive := by
  obtain ⟨h1, h2⟩ := setKeyE_done _ _ _ _ _ _ h
  have : ∀ k', k' ∈ vis' → Touches idx tys k' i → p ∈ s'.alive := by
    clear h1 ht
    intro k' hk' ht'
    induction ht' with
    | here hi => exact ((((h2.done _ hk').elim (fun h => by cases h) id) _ hi).1 p hp)
    | there hi hty hd _ ih => exact ih hp (((((h2.done _ hk').elim (fun h => by cases h) id) _ hi).2 _ _ _ hty hd))
  exact this k h1 ht

theorem unmE_step {P : UEnv} {n : Nat} : ∀ (kvs : List (Bytes × J)) (s : EVar) p, unmE parent P n kvs s = some p →
    EStep parent (fun i => ∃ k j, (k, j) ∈ kvs ∧ Touches (P.idx n) (P.defs.getD n []) k i) s p.1
  | [], s, p, h => by simp only [unmE, Option.some.injEq] at h; subst h; exact .refl _ _
  | (k, j) :: r, s, p, h => by
    simp only [unmE] at h
    split at h
    · cases h
    · rename_i s' vis e hk
      cases hr : unmE parent P n r s' with
      | none => rw [hr] at h; cases h
      | some q =>
        rw [hr] at h
        cases h
        exact ((setKeyE_step _ _ _ _ _ hk).mono fun i hi => ⟨k, j, List.mem_cons_self .., hi⟩).trans
          ((unmE_step r s' q hr).mono fun i ⟨k', j', h1, h2⟩ => ⟨k', j', List.mem_cons_of_mem _ h1, h2⟩)

theorem unmE_reached {P : UEnv} {n : Nat} : ∀ (kvs : List (Bytes × J)) (s s' : EVar), unmE parent P n kvs s = some (s', []) →
    ∀ k j i p, (k, j) ∈ kvs → Touches (P.idx n) (P.defs.getD n []) k i → parent i = some p → p ∈ s'.alive
  | [], _, _, _, _, _, _, _, h, _, _ => by cases h
  | (k, j) :: r, s, s', h, k', j', i, p, hm, ht, hp => by
    simp only [unmE] at h
    split at h
    · cases h
    · rename_i s1 vis e hk
      cases hr : unmE parent P n r s1 with
      | none => rw [hr] at h; cases h
      | some q =>
        rw [hr] at h
        obtain ⟨s2, es⟩ := q
        cases e with
        | some e => simp at h
        | none =>
          simp only [Option.map_some, Option.some.injEq, Prod.mk.injEq] at h
          obtain ⟨rfl, rfl⟩ := h
          rcases List.mem_cons.1 hm with hm | hm
          · cases hm
            exact (unmE_step r s1 _ hr).keep p (setKeyE_reached hk ht hp)
          · exact unmE_reached r s1 s2 hr k' j' i p hm ht hp

/-- A key that leads to a field directly allocates its struct, if the field is the first; whatever the error. -/
theorem setKeyE_direct {f : Nat} {k : Bytes} {s : EVar} {p : EVar × List Bytes × Option UErr} (h : setKeyE parent idx tys assign (f + 1) k [] s = some p) {i : Nat}
    (hi : idx k = [i]) {q : Nat} (hq : parent i = some q) : q ∈ p.1.alive := by
  simp only [setKeyE, List.not_mem_nil, if_false, hi, setLoopE] at h
  have h0 : q ∈ (s.enter parent i).alive := (enter_alive s i q).2 (.inr hq)
  split at h
  · split at h
    · cases h
    · cases h; exact h0
    · split at h
      · cases h; exact h0
      · split at h
        · cases h
        · rename_i hr
          cases h; exact (setKeyE_step _ _ _ _ _ hr).keep q h0
        · rename_i hr
          cases h; exact (setKeyE_step _ _ _ _ _ hr).keep q h0
  · cases h

theorem unmE_direct {P : UEnv} {n : Nat} : ∀ (kvs : List (Bytes × J)) (s : EVar) r, unmE parent P n kvs s = some r →
    ∀ k j i p, (k, j) ∈ kvs → P.idx n k = [i] → parent i = some p → p ∈ r.1.alive
  | [], _, _, _, _, _, _, _, h, _, _ => by cases h
  | (k, j) :: r, s, p, h, k', j', i, q, hm, ht, hq => by
    simp only [unmE] at h
    split at h
    · cases h
    · rename_i s1 vis e hk
      cases hr : unmE parent P n r s1 with
      | none => rw [hr] at h; cases h
      | some z =>
        rw [hr] at h
        cases h
        rcases List.mem_cons.1 hm with hm | hm
        · cases hm
          exact (unmE_step r s1 _ hr).keep q (setKeyE_direct hk ht hq)
        · exact unmE_direct r s1 z hr k' j' i q hm ht hq

end Jsonutils
