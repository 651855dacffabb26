import Verif.Model.SortedMap

/-! Facts about byte order and the sorted map. -/

namespace Jsonutils

theorem blt_irrefl (a : Bytes) : blt a a = false := by
  induction a with
  | nil => rfl
  | cons x xs ih => simp [blt, ih]

theorem blt_trans {a b c : Bytes} (h1 : blt a b = true) (h2 : blt b c = true) : blt a c = true := by
  induction a generalizing b c with
  | nil =>
    cases b with
    | nil => simp [blt] at h1
    | cons y ys =>
      cases c with
      | nil => simp [blt] at h2
      | cons z zs => rfl
  | cons x xs ih =>
    cases b with
    | nil => simp [blt] at h1
    | cons y ys =>
      cases c with
      | nil => simp [blt] at h2
      | cons z zs =>
        simp [blt] at h1 h2 ⊢
        rcases h1 with h1 | ⟨rfl, h1⟩
        · rcases h2 with h2 | ⟨rfl, h2⟩
          · exact Or.inl (UInt8.lt_trans h1 h2)
          · exact Or.inl h1
        · rcases h2 with h2 | ⟨rfl, h2⟩
          · exact Or.inl h2
          · exact Or.inr ⟨rfl, ih h1 h2⟩

theorem blt_total (a b : Bytes) : blt a b = true ∨ a = b ∨ blt b a = true := by
  induction a generalizing b with
  | nil => cases b <;> simp [blt]
  | cons x xs ih =>
    cases b with
    | nil => simp [blt]
    | cons y ys =>
      simp only [blt, Bool.or_eq_true, Bool.and_eq_true, decide_eq_true_eq, beq_iff_eq, List.cons.injEq]
      by_cases hxy : x = y
      · subst hxy
        rcases ih ys with h | h | h
        · exact Or.inl (Or.inr ⟨rfl, h⟩)
        · exact Or.inr (Or.inl ⟨rfl, h⟩)
        · exact Or.inr (Or.inr (Or.inr ⟨rfl, h⟩))
      · rcases UInt8.lt_or_lt_of_ne hxy with h | h
        · exact Or.inl (Or.inl h)
        · exact Or.inr (Or.inr (Or.inl h))

theorem blt_asymm {a b : Bytes} (h : blt a b = true) : blt b a = false := by
  cases h' : blt b a with
  | false => rfl
  | true => have := blt_trans h h'; rw [blt_irrefl] at this; exact this.symm

theorem blt_ne {a b : Bytes} (h : blt a b = true) : a ≠ b := by
  rintro rfl; rw [blt_irrefl] at h; simp at h

variable {α : Type}

theorem sorted_nil : SMap.Sorted ([] : SMap α) := List.Pairwise.nil

theorem sorted_cons {k : Bytes} {v : α} {m : SMap α} :
    SMap.Sorted ((k, v) :: m) ↔ (∀ e ∈ m, blt k e.1 = true) ∧ SMap.Sorted m := by
  unfold SMap.Sorted; rw [List.pairwise_cons]

theorem mem_smAdd {m : SMap α} {k : Bytes} {v : α} {e : Bytes × α} (h : e ∈ smAdd m k v) :
    e = (k, v) ∨ e ∈ m := by
  induction m with
  | nil => simp [smAdd] at h; exact Or.inl h
  | cons p m ih =>
    obtain ⟨k', v'⟩ := p
    simp only [smAdd] at h
    split at h
    · rcases List.mem_cons.1 h with h | h
      · exact Or.inr (by simp [h])
      · rcases ih h with h | h
        · exact Or.inl h
        · exact Or.inr (by simp [h])
    · split at h
      · rcases List.mem_cons.1 h with h | h
        · exact Or.inl h
        · exact Or.inr (by simp [h])
      · rcases List.mem_cons.1 h with h | h
        · exact Or.inl h
        · exact Or.inr h

theorem sorted_smAdd {m : SMap α} (h : SMap.Sorted m) (k : Bytes) (v : α) : SMap.Sorted (smAdd m k v) := by
  induction m with
  | nil => simp [smAdd, SMap.Sorted]
  | cons p m ih =>
    obtain ⟨k', v'⟩ := p
    rw [sorted_cons] at h
    simp only [smAdd]
    split
    · rename_i hlt
      rw [sorted_cons]
      refine ⟨?_, ih h.2⟩
      intro e he
      rcases mem_smAdd he with rfl | he
      · exact hlt
      · exact h.1 e he
    · rename_i hlt
      split
      · rename_i heq; subst heq
        rw [sorted_cons]; exact h
      · rename_i hne
        have hkk : blt k k' = true := by
          rcases blt_total k k' with h' | h' | h'
          · exact h'
          · exact absurd h'.symm hne
          · exact absurd h' hlt
        rw [sorted_cons, sorted_cons]
        refine ⟨?_, h⟩
        intro e he
        rcases List.mem_cons.1 he with rfl | he
        · exact hkk
        · exact blt_trans hkk (h.1 e he)

theorem smAdd_append {m : SMap α} {k : Bytes} (h : ∀ e ∈ m, blt e.1 k = true) (v : α) :
    smAdd m k v = m ++ [(k, v)] := by
  induction m with
  | nil => rfl
  | cons p m ih =>
    obtain ⟨k', v'⟩ := p
    have := h (k', v') (by simp)
    simp only [smAdd]
    rw [if_pos this, ih (fun e he => h e (by simp [he]))]
    rfl

theorem foldl_smAdd_sorted (m acc : SMap α) (h : SMap.Sorted (acc ++ m)) :
    m.foldl (fun a kv => smAdd a kv.1 kv.2) acc = acc ++ m := by
  induction m generalizing acc with
  | nil => simp
  | cons p m ih =>
    obtain ⟨k, v⟩ := p
    simp only [List.foldl_cons]
    have h1 : ∀ e ∈ acc, blt e.1 k = true := by
      intro e he
      unfold SMap.Sorted at h
      rw [List.pairwise_append] at h
      exact h.2.2 e he (k, v) (by simp)
    rw [smAdd_append h1, ih]
    · simp
    · simpa using h

/-! ### get -/

theorem smGet_smAdd (m : SMap α) (h : SMap.Sorted m) (k k' : Bytes) (v : α) :
    smGet (smAdd m k v) k' = if k' = k then some v else smGet m k' := by
  induction m with
  | nil => simp [smAdd, smGet, eq_comm]
  | cons p m ih =>
    obtain ⟨k0, v0⟩ := p
    rw [sorted_cons] at h
    simp only [smAdd]
    split
    · rename_i hlt
      have hne := blt_ne hlt
      simp only [smGet]
      rw [ih h.2]
      by_cases h1 : k0 = k'
      · subst h1; simp [hne]
      · simp [h1]
    · split
      · rename_i heq; subst heq
        simp only [smGet]
        by_cases h1 : k0 = k'
        · subst h1; simp
        · have : ¬ k' = k0 := fun h => h1 h.symm
          simp [h1, this]
      · simp only [smGet]
        by_cases h1 : k = k'
        · subst h1; simp
        · have : ¬ k' = k := fun h => h1 h.symm
          simp [h1, this]

theorem smGet_none_of {m : SMap α} {k : Bytes} (h : ∀ e ∈ m, e.1 ≠ k) : smGet m k = none := by
  induction m with
  | nil => rfl
  | cons p m ih =>
    obtain ⟨k0, v0⟩ := p
    have := h (k0, v0) (by simp)
    simp only at this
    simp only [smGet, this, if_false]
    exact ih (fun e he => h e (by simp [he]))

theorem smGet_mem {m : SMap α} {k : Bytes} {v : α} (h : smGet m k = some v) : (k, v) ∈ m := by
  induction m with
  | nil => simp [smGet] at h
  | cons p m ih =>
    obtain ⟨k0, v0⟩ := p
    simp only [smGet] at h
    split at h
    · simp_all
    · exact List.mem_cons_of_mem _ (ih h)

theorem smGet_of_mem {m : SMap α} (hs : SMap.Sorted m) {k : Bytes} {v : α} (h : (k, v) ∈ m) : smGet m k = some v := by
  induction m with
  | nil => simp at h
  | cons p m ih =>
    obtain ⟨k0, v0⟩ := p
    rw [sorted_cons] at hs
    simp only [smGet]
    rcases List.mem_cons.1 h with h | h
    · simp at h; simp [h]
    · have := blt_ne (hs.1 _ h)
      simp only at this
      simp [this, ih hs.2 h]

theorem smGet_iff_mem {m : SMap α} (hs : SMap.Sorted m) (k : Bytes) (v : α) : smGet m k = some v ↔ (k, v) ∈ m :=
  ⟨smGet_mem, smGet_of_mem hs⟩

theorem smGet_isSome_iff (m : SMap α) (k : Bytes) : (smGet m k).isSome = true ↔ k ∈ smKeys m := by
  induction m with
  | nil => simp [smGet, smKeys]
  | cons p m ih =>
    obtain ⟨k0, v0⟩ := p
    simp only [smGet, smKeys, List.map_cons, List.mem_cons] at ih ⊢
    split
    · simp_all
    · rename_i h
      rw [ih]
      constructor
      · exact Or.inr
      · rintro (h' | h')
        · exact absurd h'.symm h
        · exact h'

/-- Sorted maps with the same lookups are equal. -/
theorem sorted_ext {m n : SMap α} (hm : SMap.Sorted m) (hn : SMap.Sorted n)
    (h : ∀ k, smGet m k = smGet n k) : m = n := by
  induction m generalizing n with
  | nil =>
    cases n with
    | nil => rfl
    | cons p n =>
      obtain ⟨k, v⟩ := p
      have := h k
      simp [smGet] at this
  | cons p m ih =>
    obtain ⟨k, v⟩ := p
    cases n with
    | nil => have := h k; simp [smGet] at this
    | cons q n =>
      obtain ⟨k', v'⟩ := q
      have hm' := hm
      have hn' := hn
      rw [sorted_cons] at hm hn
      have hk : k = k' := by
        have h1 := smGet_mem (by rw [← h k]; simp [smGet] : smGet ((k', v') :: n) k = some v)
        have h2 := smGet_mem (by rw [h k']; simp [smGet] : smGet ((k, v) :: m) k' = some v')
        rcases List.mem_cons.1 h1 with h1 | h1
        · simp at h1; exact h1.1
        · rcases List.mem_cons.1 h2 with h2 | h2
          · simp at h2; exact h2.1.symm
          · have a := hn.1 _ h1
            have b := hm.1 _ h2
            have := blt_trans a b
            rw [blt_irrefl] at this; simp at this
      subst hk
      have hv : v = v' := by have := h k; simpa [smGet] using this
      subst hv
      congr 1
      apply ih hm.2 hn.2
      intro x
      by_cases hx : k = x
      · subst hx
        rw [smGet_none_of, smGet_none_of]
        · intro e he; exact (blt_ne (hn.1 e he)).symm
        · intro e he; exact (blt_ne (hm.1 e he)).symm
      · have := h x
        simpa [smGet, hx] using this

end Jsonutils
