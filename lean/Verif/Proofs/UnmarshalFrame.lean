import Verif.Proofs.UnmarshalRT
import Verif.Proofs.UnmarshalTyped

/-! What `Unmarshal` writes: fields, elements, entries. -/

namespace Jsonutils

/-! ### Structs -/

section
variable {idx : Bytes → List Nat} {tys : List (FInfo × Ty)} {assign : Ty → UV → URes}

theorem setLoop_frame {again : Bytes → List Bytes → List UV → Option (List UV × List Bytes × Option UErr)} {q : Nat}
    (hag : ∀ (i : Nat) (info : FInfo) (t : Ty) k, tys[i]? = some (info, t) → info.deprecatedBy = some k → ∀ vis vs p, again k vis vs = some p → (Touches idx tys k q ∨ p.1[q]? = vs[q]?) ∧ p.1.length = vs.length) :
    ∀ (is : List Nat) (vis : List Bytes) (vs : List UV) p, setLoop tys assign again is vis vs = some p →
      (q ∈ is ∨ (∃ (i : Nat) (info : FInfo) (t : Ty) (k : Bytes), i ∈ is ∧ tys[i]? = some (info, t) ∧ info.deprecatedBy = some k ∧ Touches idx tys k q) ∨ p.1[q]? = vs[q]?) ∧ p.1.length = vs.length
  | [], vis, vs, p, h => by simp only [setLoop, Option.some.injEq] at h; subst h; exact ⟨.inr (.inr rfl), rfl⟩
  | i :: is, vis, vs, p, h => by
    simp only [setLoop] at h
    have hset : ∀ v', q = i ∨ (vs.set i v')[q]? = vs[q]? := by
      intro v'
      by_cases hq : q = i
      · exact .inl hq
      · exact .inr (List.getElem?_set_ne (Ne.symm hq))
    split at h
    · rename_i info t v hty hv
      split at h
      · cases h
      · cases h
        rename_i v' e _
        refine ⟨?_, by simp⟩
        rcases hset v' with h | h
        · exact .inl (by simp [h])
        · exact .inr (.inr h)
      · rename_i v' _
        split at h
        · obtain ⟨ih, hl⟩ := setLoop_frame hag is vis _ p h
          refine ⟨?_, by simpa using hl⟩
          rcases ih with ih | ⟨a, b, c, d, e1, e2⟩ | ih
          · exact .inl (List.mem_cons_of_mem _ ih)
          · exact .inr (.inl ⟨a, b, c, d, List.mem_cons_of_mem _ e1, e2⟩)
          · rcases hset v' with h' | h'
            · exact .inl (by simp [h'])
            · exact .inr (.inr (ih.trans h'))
        · rename_i k hk
          have hk' := hag i info t k hty hk vis (vs.set i v')
          split at h
          · cases h
          · rename_i vs1 vis1 e hagr
            cases h
            obtain ⟨g1, g2⟩ := hk' _ hagr
            refine ⟨?_, by simpa using g2⟩
            rcases g1 with g | g
            · exact .inr (.inl ⟨i, info, t, k, List.mem_cons_self .., hty, hk, g⟩)
            · rcases hset v' with h' | h'
              · exact .inl (by simp [h'])
              · exact .inr (.inr (g.trans h'))
          · rename_i vs1 vis1 hagr
            obtain ⟨g1, g2⟩ := hk' _ hagr
            obtain ⟨ih, hl⟩ := setLoop_frame hag is vis1 _ p h
            refine ⟨?_, by rw [hl]; simpa using g2⟩
            rcases ih with ih | ⟨a, b, c, d, e1, e2⟩ | ih
            · exact .inl (List.mem_cons_of_mem _ ih)
            · exact .inr (.inl ⟨a, b, c, d, List.mem_cons_of_mem _ e1, e2⟩)
            · rcases g1 with g | g
              · exact .inr (.inl ⟨i, info, t, k, List.mem_cons_self .., hty, hk, g⟩)
              · rcases hset v' with h' | h'
                · exact .inl (by simp [h'])
                · exact .inr (.inr (ih.trans (g.trans h')))
    · cases h

theorem setKey_frame {q : Nat} : ∀ (f : Nat) (key : Bytes) (vis : List Bytes) (vs : List UV) p, setKey idx tys assign f key vis vs = some p →
    (Touches idx tys key q ∨ p.1[q]? = vs[q]?) ∧ p.1.length = vs.length
  | 0, _, _, _, _, h => by simp [setKey] at h
  | f + 1, key, vis, vs, p, h => by
    simp only [setKey] at h
    split at h
    · cases h; exact ⟨.inr rfl, rfl⟩
    · obtain ⟨h1, h2⟩ := setLoop_frame (idx := idx) (q := q) (fun i info t k _ _ vis vs p hp => setKey_frame f k vis vs p hp) _ _ _ _ h
      refine ⟨?_, h2⟩
      rcases h1 with h1 | ⟨a, b, c, d, e1, e2, e3, e4⟩ | h1
      · exact .inl (.here h1)
      · exact .inl (.there e1 e2 e3 e4)
      · exact .inr h1

end

theorem unmf_frame {P : UEnv} {n q : Nat} : ∀ (kvs : List (Bytes × J)) (vs : List UV) p, J.unmf P kvs n vs = some p →
    (∀ k j, (k, j) ∈ kvs → ¬ Touches (P.idx n) (P.defs.getD n []) k q) → p.1[q]? = vs[q]?
  | [], vs, p, h, _ => by simp only [J.unmf, Option.some.injEq] at h; subst h; rfl
  | (k, j) :: r, vs, p, h, hn => by
    simp only [J.unmf] at h
    split at h
    · cases h
    · rename_i vs' vis e hk
      obtain ⟨h1, _⟩ := setKey_frame (q := q) _ _ _ _ _ hk
      cases hr : J.unmf P r n vs' with
      | none => rw [hr] at h; cases h
      | some p' =>
        rw [hr] at h
        simp only [Option.map_some, Option.some.injEq] at h
        subst h
        have := unmf_frame r vs' p' hr (fun k' j' hm => hn k' j' (List.mem_cons_of_mem _ hm))
        simp only
        rw [this]
        rcases h1 with h1 | h1
        · exact absurd h1 (hn k j (List.mem_cons_self ..))
        · exact h1

theorem setKey_none {idx : Bytes → List Nat} {tys : List (FInfo × Ty)} {assign : Ty → UV → URes} {f : Nat} {k : Bytes} {vs : List UV}
    (hi : idx k = []) : setKey idx tys assign (f + 1) k [] vs = some (vs, [k], none) := by
  simp only [setKey, List.not_mem_nil, if_false, hi, setLoop]

theorem setKey_one' {idx : Bytes → List Nat} {tys : List (FInfo × Ty)} {assign : Ty → UV → URes} {f : Nat} {k : Bytes} {vs : List UV}
    {i : Nat} {info : FInfo} {t : Ty} {v w : UV} {e : Option UErr} (hi : idx k = [i]) (ht : tys[i]? = some (info, t)) (hv : vs[i]? = some v) (hd : info.deprecatedBy = none)
    (ha : assign t v = some (w, e)) : setKey idx tys assign (f + 1) k [] vs = some (vs.set i w, [k], e) := by
  cases e with
  | none => exact setKey_one hi ht hv hd ha
  | some e => simp only [setKey, List.not_mem_nil, if_false, hi, setLoop, ht, hv, ha]

theorem filterMap_congr' {α β : Type} {f g : α → Option β} : ∀ {l : List α}, (∀ x ∈ l, f x = g x) → l.filterMap f = l.filterMap g
  | [], _ => rfl
  | x :: xs, h => by
    rw [List.filterMap_cons, List.filterMap_cons, h x (List.mem_cons_self ..), filterMap_congr' fun y hy => h y (List.mem_cons_of_mem _ hy)]

/-- A dictionary with plain keys: every key is attempted, with the value the field had before; errors are collected in order. -/
theorem unmf_plain (P : UEnv) (n : Nat) : ∀ (kvs : List (Bytes × J)) (vs : List UV) p, PlainKeys (P.idx n) (P.defs.getD n []) kvs →
    vs.length = (P.defs.getD n []).length → J.unmf P kvs n vs = some p →
    p.1.length = vs.length ∧
    (∀ i, (∀ k j, (k, j) ∈ kvs → P.idx n k ≠ [i]) → p.1[i]? = vs[i]?) ∧
    (∀ k j i info t v, (k, j) ∈ kvs → P.idx n k = [i] → (P.defs.getD n [])[i]? = some (info, t) → vs[i]? = some v →
      ∃ w e, j.unm P t v = some (w, e) ∧ p.1[i]? = some w) ∧
    p.2 = kvs.filterMap fun kv => (fieldRes P n vs kv.1 kv.2).bind (·.2)
  | [], vs, p, _, _, h => by
    simp only [J.unmf, Option.some.injEq] at h; subst h
    exact ⟨rfl, fun _ _ => rfl, by intro k j i info t v h; (cases h), rfl⟩
  | (k, j) :: r, vs, p, hp, hl, h => by
    have hpr : PlainKeys (P.idx n) (P.defs.getD n []) r :=
      ⟨fun k' j' hm => hp.1 k' j' (List.mem_cons_of_mem _ hm), (List.pairwise_cons.1 hp.2).2⟩
    have hne := (List.pairwise_cons.1 hp.2).1
    simp only [J.unmf] at h
    rcases hp.1 k j (List.mem_cons_self ..) with hk | ⟨i, info, t, hk, hty, hd⟩
    · rw [setKey_none hk] at h
      simp only at h
      cases hr : J.unmf P r n vs with
      | none => rw [hr] at h; cases h
      | some p' =>
        rw [hr] at h
        simp only [Option.map_some, Option.some.injEq] at h
        subst h
        obtain ⟨g1, g2, g3, g4⟩ := unmf_plain P n r vs p' hpr hl hr
        refine ⟨g1, fun i hi => g2 i fun k' j' hm => hi k' j' (List.mem_cons_of_mem _ hm), ?_, ?_⟩
        · intro k' j' i' info' t' v' hm e1 e2 e3
          rcases List.mem_cons.1 hm with hm | hm
          · cases hm; rw [hk] at e1; cases e1
          · exact g3 k' j' i' info' t' v' hm e1 e2 e3
        · simp only [List.filterMap_cons, fieldRes, hk, Option.bind_none, g4]
    · have hilt : i < vs.length := by rw [hl]; exact (List.getElem?_eq_some_iff.1 hty).1
      obtain ⟨v, hv⟩ : ∃ v, vs[i]? = some v := ⟨_, List.getElem?_eq_getElem hilt⟩
      cases hu : j.unm P t v with
      | none =>
        have : setKey (P.idx n) (P.defs.getD n []) (fun t v => J.unm P j t v) ((P.defs.getD n []).length + 2) k [] vs = none := by
          simp only [setKey, List.not_mem_nil, if_false, hk, setLoop, hty, hv, hu]
        rw [this] at h; cases h
      | some q =>
        obtain ⟨w, e⟩ := q
        rw [setKey_one' hk hty hv hd hu] at h
        simp only at h
        cases hr : J.unmf P r n (vs.set i w) with
        | none => rw [hr] at h; cases h
        | some p' =>
          rw [hr] at h
          simp only [Option.map_some, Option.some.injEq] at h
          subst h
          obtain ⟨g1, g2, g3, g4⟩ := unmf_plain P n r (vs.set i w) p' hpr (by simpa using hl) hr
          have hother : ∀ k' j', (k', j') ∈ r → P.idx n k' ≠ [i] := fun k' j' hm => hne _ hm i hk
          refine ⟨by simpa using g1, ?_, ?_, ?_⟩
          · intro i' hi'
            simp only
            rw [g2 i' fun k' j' hm => hi' k' j' (List.mem_cons_of_mem _ hm)]
            refine List.getElem?_set_ne ?_
            rintro rfl
            exact hi' k j (List.mem_cons_self ..) hk
          · intro k' j' i' info' t' v' hm e1 e2 e3
            rcases List.mem_cons.1 hm with hm | hm
            · cases hm
              rw [hk] at e1; cases e1
              rw [hty] at e2; cases e2
              rw [hv] at e3; cases e3
              refine ⟨w, e, hu, ?_⟩
              simp only
              rw [g2 i hother, List.getElem?_set_self hilt]
            · refine g3 k' j' i' info' t' v' hm e1 e2 ?_
              rw [List.getElem?_set_ne (by rintro rfl; exact hother k' j' hm e1)]
              exact e3
          · have hsame : ∀ k' j', (k', j') ∈ r → fieldRes P n (vs.set i w) k' j' = fieldRes P n vs k' j' := by
              intro k' j' hm
              unfold fieldRes
              split
              · rename_i i' hi'
                rw [List.getElem?_set_ne (by rintro rfl; exact hother k' j' hm hi')]
              · rfl
            have : r.filterMap (fun kv => (fieldRes P n (vs.set i w) kv.1 kv.2).bind (·.2)) = r.filterMap (fun kv => (fieldRes P n vs kv.1 kv.2).bind (·.2)) :=
              filterMap_congr' fun kv hm => by rw [hsame kv.1 kv.2 hm]
            rw [this] at g4
            have hf : fieldRes P n vs k j = some (w, e) := by simp only [fieldRes, hk, hty, hv, hu]
            simp only [List.filterMap_cons, hf, Option.bind_some]
            cases e <;> simp [g4]

end Jsonutils
