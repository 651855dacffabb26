import Verif.Spec.Size
import Verif.Spec.Lenient
import Verif.Proofs.LenientLex
import Verif.Proofs.Dict
import Verif.Proofs.Equals
import Verif.Proofs.FloatShort

/-! # The size of documents: what `Parse` builds and what `String` writes -/

namespace Jsonutils
open Lenient Rfc

theorem nodess_eq (xs : List J) : J.nodess xs = (xs.map J.nodes).sum := by
  induction xs with
  | nil => rfl
  | cons x xs ih => simp [J.nodess, ih]

theorem nodesf_eq (kvs : List (Bytes × J)) : J.nodesf kvs = (kvs.map fun p => p.2.nodes).sum := by
  induction kvs with
  | nil => rfl
  | cons x xs ih => obtain ⟨k, x⟩ := x; simp [J.nodesf, ih]

theorem lettersf_eq (kvs : List (Bytes × J)) : J.lettersf kvs = (kvs.map fun p => p.1.length + p.2.letters).sum := by
  induction kvs with
  | nil => rfl
  | cons x xs ih => obtain ⟨k, x⟩ := x; simp [J.lettersf, ih]

theorem nodes_pos (v : J) : 1 ≤ v.nodes := by cases v <;> simp [J.nodes]

mutual
theorem depth_le : ∀ v : J, v.depth ≤ v.nodes
  | .arr xs => by unfold J.depth J.nodes; have := depths_le xs; omega
  | .dict _ kvs => by unfold J.depth J.nodes; have := depthf_le kvs; omega
  | .null => Nat.le_refl _
  | .bool _ => Nat.le_refl _
  | .int _ => Nat.le_refl _
  | .float _ _ => Nat.le_refl _
  | .str _ => Nat.le_refl _
  | .ptr _ => Nat.le_refl _
theorem depths_le : ∀ xs : List J, J.depths xs ≤ J.nodess xs
  | [] => Nat.le_refl _
  | x :: xs => by unfold J.depths J.nodess; have := depth_le x; have := depths_le xs; omega
theorem depthf_le : ∀ kvs : List (Bytes × J), J.depthf kvs ≤ J.nodesf kvs
  | [] => Nat.le_refl _
  | (_, x) :: kvs => by unfold J.depthf J.nodesf; have := depth_le x; have := depthf_le kvs; omega
end

/-! ## Parse -/

theorem decoded_len (a b c d : HexDigit) : (StrItem.unicode a b c d).decoded.length ≤ 6 := by
  rw [← encode_decoded]
  unfold encodeRune
  repeat' split
  all_goals simp

theorem quoted_len {q : UInt8} {t s r : Bytes} (h : Quoted q t s r) : s.length + r.length ≤ t.length := by
  induction h with
  | eof => simp
  | close => simp
  | raw _ _ _ ih => simp only [List.length_cons]; omega
  | esc _ _ _ ih => simp only [List.length_cons]; omega
  | @unicode a b c d t s r _ _ ih =>
    have := decoded_len a b c d
    simp only [List.length_cons, List.length_append]; omega
  | hex _ _ ih => simp only [List.length_cons]; omega

theorem key_len {t k r : Bytes} (h : Key t k r) : k.length + r.length ≤ t.length := by
  cases h with
  | quoted _ h => have := quoted_len h; simp only [List.length_cons]; omega
  | bare => simp

theorem means_size {w : Bytes} {j : J} (h : Means w j) : j.nodes = 1 ∧ j.letters ≤ w.length := by
  cases h with
  | keyword h => cases h <;> simp [J.nodes, J.letters]
  | int => simp [J.nodes, J.letters]
  | float => simp [J.nodes, J.letters]
  | str => simp [J.nodes, J.letters]

theorem sum_sub {α : Type} (g : Bytes × α → Nat) (m ms : List (Bytes × α)) (hn : (m.map (·.1)).Nodup) (hs : ∀ p ∈ m, p ∈ ms) :
    (m.map g).sum ≤ (ms.map g).sum := by
  induction m generalizing ms with
  | nil => simp
  | cons p m ih =>
    obtain ⟨a, b, rfl⟩ := List.append_of_mem (hs p (by simp))
    simp only [List.map_cons, List.nodup_cons] at hn
    have := ih (a ++ b) hn.2 (by
      intro q hq
      have h1 := hs q (by simp [hq])
      simp only [List.mem_append, List.mem_cons] at h1 ⊢
      rcases h1 with h1 | h1 | h1
      · exact Or.inl h1
      · subst h1; exact absurd (List.mem_map_of_mem hq) hn.1
      · exact Or.inr h1)
    simp only [List.map_append, List.sum_append, List.map_cons, List.sum_cons] at this ⊢
    omega

theorem lastValue_mem {α : Type} {ms : List (Bytes × α)} {k : Bytes} {v : α} (h : lastValue ms k = some v) : (k, v) ∈ ms := by
  unfold lastValue at h
  cases hf : ms.reverse.find? fun p => p.1 = k with
  | none => rw [hf] at h; cases h
  | some p =>
    rw [hf] at h
    have h1 := List.mem_of_find?_eq_some hf
    have h2 := List.find?_some hf
    simp at h h1 h2
    subst h; subst h2; exact h1

theorem entries_sub {ms : List (Bytes × J)} {m : SMap J} (h : Entries ms m) : (m.map (·.1)).Nodup ∧ ∀ p ∈ m, p ∈ ms := by
  refine ⟨?_, ?_⟩
  · have := sorted_keys_nodup h.1
    unfold smKeys at this
    simpa using this
  · intro p hp
    obtain ⟨k, v⟩ := p
    have h1 : smGet m k = some v := smGet_of_mem h.1 hp
    have h2 := h.2 k
    rw [h1] at h2
    split at h2
    · cases h2
    · exact lastValue_mem h2.symm


def wt (v : J) : Nat := v.nodes + v.letters
def wts (xs : List J) : Nat := J.nodess xs + J.letterss xs
def wtf (kvs : List (Bytes × J)) : Nat := J.nodesf kvs + J.lettersf kvs

theorem entries_wt {ms : List (Bytes × J)} {m : SMap J} (h : Entries ms m) : wtf m ≤ wtf ms := by
  obtain ⟨h1, h2⟩ := entries_sub h
  unfold wtf
  rw [nodesf_eq, nodesf_eq, lettersf_eq, lettersf_eq]
  have := sum_sub (fun p : Bytes × J => p.2.nodes) m ms h1 h2
  have := sum_sub (fun p : Bytes × J => p.1.length + p.2.letters) m ms h1 h2
  omega

mutual
theorem value_size : ∀ {t r : Bytes} {v : J} {ids : List Int}, Value t v ids r → v.nodes + r.length ≤ t.length ∧ wt v + r.length ≤ t.length + 1
  | _, _, _, _, .text _ h => by
    have := quoted_len h
    simp only [wt, J.nodes, J.letters, List.length_cons]; omega
  | _, _, _, _, .ref _ _ _ => by
    simp only [wt, J.nodes, J.letters, List.length_cons, List.length_append]; omega
  | _, _, _, _, .word hn _ _ _ _ h => by
    have := means_size h
    have := List.length_pos_iff.2 hn
    simp only [wt, List.length_append]; omega
  | _, _, _, _, .array h => by
    have := elements_size h
    simp only [wt, wts, J.nodes, J.letters, List.length_cons] at *; omega
  | _, _, _, _, .dict h he => by
    have := members_size h
    have := entries_wt he
    have h3 := entries_sub he
    have := sum_sub (fun p : Bytes × J => p.2.nodes) _ _ h3.1 h3.2
    rw [← nodesf_eq, ← nodesf_eq] at this
    simp only [wt, wtf, J.nodes, J.letters, List.length_cons] at *; omega
theorem elements_size : ∀ {t r : Bytes} {vs : List J} {ids : List Int}, Elements t vs ids r → J.nodess vs + r.length ≤ t.length ∧ wts vs + r.length ≤ t.length
  | _, _, _, _, .eof => by simp [wts, J.nodess, J.letterss]
  | _, _, _, _, .close _ => by simp only [wts, J.nodess, J.letterss, List.length_cons, List.length_append]; omega
  | _, _, _, _, .last _ h _ => by
    have := value_size h
    simp only [wt, wts, J.nodess, J.letterss, List.length_cons, List.length_append] at *; omega
  | _, _, _, _, .more _ h _ h' => by
    have := value_size h
    have := elements_size h'
    simp only [wt, wts, J.nodess, J.letterss, List.length_cons, List.length_append] at *; omega
theorem members_size : ∀ {t r : Bytes} {ms : List (Bytes × J)} {ids : List Int}, Members t ms ids r → J.nodesf ms + r.length ≤ t.length ∧ wtf ms + r.length ≤ t.length
  | _, _, _, _, .eof => by simp [wtf, J.nodesf, J.lettersf]
  | _, _, _, _, .close _ => by simp only [wtf, J.nodesf, J.lettersf, List.length_cons, List.length_append]; omega
  | _, _, _, _, .last _ hk _ _ h _ _ => by
    have := value_size h
    have := key_len hk
    simp only [wt, wtf, J.nodesf, J.lettersf, List.length_cons, List.length_append] at *; omega
  | _, _, _, _, .more _ hk _ _ h _ _ h' => by
    have := value_size h
    have := members_size h'
    have := key_len hk
    simp only [wt, wtf, J.nodesf, J.lettersf, List.length_cons, List.length_append] at *; omega
end

end Jsonutils
