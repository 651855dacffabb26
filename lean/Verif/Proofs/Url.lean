import Verif.Model.Url
import Verif.Model.Error
import Verif.Proofs.Segments

/-! URL escaping and query parsing; error excerpts. -/

namespace Jsonutils

theorem all_bytes {P : UInt8 → Prop} (h : ∀ n : Fin 256, P (UInt8.ofNat n.val)) (c : UInt8) : P c := by
  have := h ⟨c.toNat, c.toNat_lt⟩
  simpa using this

theorem escapeByte_chars (c : UInt8) : ∀ d ∈ escapeByte c, unreserved d = true ∨ d = 43 ∨ d = 37 := by
  apply all_bytes (P := fun c => ∀ d ∈ escapeByte c, unreserved d = true ∨ d = 43 ∨ d = 37)
  decide +kernel

/-- The three forms of an escaped byte. -/
theorem escapeByte_forms (c : UInt8) :
    (c = 32 ∧ escapeByte c = [43]) ∨ (c ≠ 37 ∧ c ≠ 43 ∧ c ≠ 32 ∧ escapeByte c = [c]) ∨
    ∃ a b x y, escapeByte c = [37, a, b] ∧ hexchar2num a = some x ∧ hexchar2num b = some y ∧ x * 16 + y = c := by
  unfold escapeByte
  by_cases h1 : c = 32
  · exact Or.inl ⟨h1, if_pos h1⟩
  · rw [if_neg h1]
    by_cases h2 : unreserved c = true
    · rw [if_pos h2]
      refine Or.inr (Or.inl ⟨?_, ?_, h1, rfl⟩)
      · rintro rfl; exact absurd h2 (by decide)
      · rintro rfl; exact absurd h2 (by decide)
    · rw [if_neg h2]
      refine Or.inr (Or.inr ⟨_, _, UInt8.ofNat (c.toNat / 16), UInt8.ofNat (c.toNat % 16), rfl, ?_, ?_, ?_⟩)
      · apply all_bytes (P := fun c => hexchar2num (hexUpper (c.toNat / 16)) = some (UInt8.ofNat (c.toNat / 16)))
        decide +kernel
      · apply all_bytes (P := fun c => hexchar2num (hexUpper (c.toNat % 16)) = some (UInt8.ofNat (c.toNat % 16)))
        decide +kernel
      · apply all_bytes (P := fun c => UInt8.ofNat (c.toNat / 16) * 16 + UInt8.ofNat (c.toNat % 16) = c)
        decide +kernel

theorem queryUnescape_cons (c : UInt8) (r : Bytes) (h : c ≠ 37) :
    queryUnescape (c :: r) = (queryUnescape r).map ((if c = 43 then 32 else c) :: ·) := by
  rw [queryUnescape.eq_def]
  split
  · rename_i h'; cases h'
  · rename_i h'; cases h'; exact absurd rfl h
  · rename_i h'; cases h'; rw [if_neg h]

theorem goCopy_zero (A R : Bytes) (h : A.length ≤ R.length) : goCopy R 0 A = some (A ++ R.drop A.length) := by
  unfold goCopy
  rw [if_pos (by omega)]
  simp [Nat.min_eq_right h]

theorem goCopy_tail (P R B : Bytes) (h : R.length = B.length) : goCopy (P ++ R) (P.length : Int) B = some (P ++ B) := by
  unfold goCopy
  rw [if_pos (by simp; omega)]
  simp [h]

theorem queryUnescape_escape (s r : Bytes) : queryUnescape (queryEscape s ++ r) = (queryUnescape r).map (s ++ ·) := by
  induction s with
  | nil => simp [queryEscape]
  | cons c s ih =>
    have e : queryEscape (c :: s) ++ r = escapeByte c ++ (queryEscape s ++ r) := by simp [queryEscape]
    rw [e]
    rcases escapeByte_forms c with ⟨h1, h2⟩ | ⟨h1, h2, h3, h4⟩ | ⟨a, b, x, y, h1, h2, h3, h4⟩
    · rw [h2, List.singleton_append, queryUnescape_cons _ _ (by decide), if_pos rfl, ih, h1]
      cases queryUnescape r <;> rfl
    · rw [h4, List.singleton_append, queryUnescape_cons _ _ h1, if_neg h2, ih]
      cases queryUnescape r <;> rfl
    · rw [h1]
      show queryUnescape (37 :: a :: b :: (queryEscape s ++ r)) = _
      rw [queryUnescape.eq_def]
      simp only [h2, h3]
      rw [ih, h4]
      cases queryUnescape r <;> rfl

theorem queryUnescape_queryEscape (s : Bytes) : queryUnescape (queryEscape s) = some s := by
  have := queryUnescape_escape s []
  simpa [queryUnescape] using this

theorem queryEscape_chars (s : Bytes) : ∀ d ∈ queryEscape s, unreserved d = true ∨ d = 43 ∨ d = 37 := by
  intro d hd
  simp only [queryEscape, List.mem_flatMap] at hd
  obtain ⟨c, _, hd⟩ := hd
  exact escapeByte_chars c d hd

theorem queryEscape_not_mem (s : Bytes) (c : UInt8) (h : unreserved c = false) (h1 : c ≠ 43) (h2 : c ≠ 37) : c ∉ queryEscape s := by
  intro hm
  rcases queryEscape_chars s c hm with h' | h' | h'
  · rw [h] at h'; cases h'
  · exact h1 h'
  · exact h2 h'

theorem queryEscape_ne_nil (s : Bytes) (h : s ≠ []) : queryEscape s ≠ [] := by
  intro e
  have := queryUnescape_queryEscape s
  rw [e] at this
  simp only [queryUnescape, Option.some.injEq] at this
  exact h this.symm

theorem queryEscape_inj {s t : Bytes} (h : queryEscape s = queryEscape t) : s = t := by
  have := queryUnescape_queryEscape s
  rw [h, queryUnescape_queryEscape] at this
  exact (Option.some.inj this).symm

theorem cutEq_noEq (s : Bytes) (h : (61 : UInt8) ∉ s) : cutEq s = (s, []) := by
  induction s with
  | nil => rfl
  | cons c s ih =>
    simp only [List.mem_cons, not_or] at h
    unfold cutEq
    rw [if_neg (fun e => h.1 e.symm), ih h.2]

theorem cutEq_append (s t : Bytes) (h : (61 : UInt8) ∉ s) : cutEq (s ++ 61 :: t) = (s, t) := by
  induction s with
  | nil => simp [cutEq]
  | cons c s ih =>
    simp only [List.mem_cons, not_or] at h
    rw [List.cons_append, cutEq, if_neg (fun e => h.1 e.symm), ih h.2]

/-! ### error excerpts -/

theorem newJSONError_ne (str : Bytes) (hne : str ≠ []) (pos : Int) (msg : Bytes) :
    ∃ p : Nat, p < str.length ∧ (p : Int) = (if pos < 0 then 0 else if pos > (str.length : Int) - 1 then (str.length : Int) - 1 else pos) ∧
      newJSONError str pos msg =
        some ⟨p, (str.take p).drop (p - 10) ++ 94 :: (str.drop p).take 10, msg⟩ := by
  have hlen : 0 < str.length := List.length_pos_iff.2 hne
  generalize hq : (if pos < 0 then 0 else if pos > (str.length : Int) - 1 then (str.length : Int) - 1 else pos) = q
  have hq0 : 0 ≤ q ∧ q < str.length := by
    subst hq
    split
    · omega
    · split <;> omega
  obtain ⟨p, rfl⟩ : ∃ p : Nat, q = p := ⟨q.toNat, by omega⟩
  refine ⟨p, by omega, rfl, ?_⟩
  unfold newJSONError
  rw [if_neg (by omega)]
  simp only [hq]
  -- the four indices as naturals
  have e1 : (if (p : Int) - 10 < 0 then 0 else (p : Int) - 10) = ((p - 10 : Nat) : Int) := by split <;> omega
  have e2 : (if (p : Int) + 10 > str.length then (str.length : Int) else (p : Int) + 10) = ((min (p + 10) str.length : Nat) : Int) := by
    split <;> omega
  rw [e1, e2]
  have b1 : (goMake (((min (p + 10) str.length : Nat) : Int) - ((p - 10 : Nat) : Int) + 1)) =
      some (List.replicate (min (p + 10) str.length - (p - 10) + 1) 0) := by
    unfold goMake
    rw [if_pos (by omega)]
    congr 2
    omega
  have b2 : goSlice str ((p - 10 : Nat) : Int) p = some ((str.take p).drop (p - 10)) := by
    unfold goSlice
    rw [if_pos (by omega)]
    simp
  have b3 : goSlice str p ((min (p + 10) str.length : Nat) : Int) = some ((str.take (min (p + 10) str.length)).drop p) := by
    unfold goSlice
    rw [if_pos (by omega)]
    simp
  have l2 : ((str.take p).drop (p - 10)).length = p - (p - 10) := by simp; omega
  have l3 : ((str.take (min (p + 10) str.length)).drop p).length = min (p + 10) str.length - p := by simp
  have a3 : (str.take (min (p + 10) str.length)).drop p = (str.drop p).take 10 := by
    rw [List.drop_take]
    by_cases h : p + 10 ≤ str.length
    · rw [Nat.min_eq_left h]; congr 1; omega
    · rw [Nat.min_eq_right (by omega), List.take_of_length_le (by simp), List.take_of_length_le (by simp; omega)]
  rw [b1, b2, b3]
  generalize hA : (str.take p).drop (p - 10) = A at *
  generalize hB : (str.take (min (p + 10) str.length)).drop p = B at *
  simp only [Option.bind_some]
  have hn : min (p + 10) str.length - (p - 10) + 1 = A.length + (1 + B.length) := by omega
  rw [hn]
  have c1 : goCopy (List.replicate (A.length + (1 + B.length)) 0) 0 A = some (A ++ List.replicate (1 + B.length) 0) := by
    have := goCopy_zero A (List.replicate (A.length + (1 + B.length)) 0) (by simp)
    rw [this]
    simp
  rw [c1]
  simp only [Option.bind_some]
  have e3 : (p : Int) - ((p - 10 : Nat) : Int) = A.length := by omega
  rw [e3]
  have c2 : goStore (A ++ List.replicate (1 + B.length) 0) (A.length : Int) 94 = some (A ++ 94 :: List.replicate B.length 0) := by
    unfold goStore
    rw [if_pos (by simp; omega)]
    simp [Nat.add_comm 1 B.length, List.replicate_succ]
  rw [c2]
  simp only [Option.bind_some]
  have c3 : goCopy (A ++ 94 :: List.replicate B.length 0) ((A.length : Int) + 1) B = some (A ++ 94 :: B) := by
    have := goCopy_tail (A ++ [94]) (List.replicate B.length 0) B (by simp)
    simpa using this
  rw [c3, ← a3]
  rfl

end Jsonutils
