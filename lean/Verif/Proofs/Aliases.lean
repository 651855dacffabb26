import Verif.Spec.Aliases
import Verif.Proofs.UnmarshalFrame

/-! # Fields under several names -/

namespace Jsonutils

variable {idx : Bytes → List Nat} {tys : List (FInfo × Ty)} {assign : Ty → UV → URes}

/-- The field received the document, and the key it is deprecated by has been visited. -/
def GotDoc (tys : List (FInfo × Ty)) (assign : Ty → UV → URes) (vs vs' : List UV) (vis' : List Bytes) (i : Nat) : Prop :=
  ∃ info t v w, tys[i]? = some (info, t) ∧ vs[i]? = some v ∧ assign t v = uok w ∧ vs'[i]? = some w ∧ ∀ k, info.deprecatedBy = some k → k ∈ vis'

/-- Field of a key visited meanwhile. -/
def JustVisited (idx : Bytes → List Nat) (vis vis' : List Bytes) (i : Nat) : Prop := ∃ k, i ∈ idx k ∧ k ∈ vis' ∧ k ∉ vis

theorem setLoop_each {S : Bytes → Prop} (hcl : ∀ k i info t k', S k → i ∈ idx k → tys[i]? = some (info, t) → info.deprecatedBy = some k' → S k')
    (hd : ∀ k k' i, S k → S k' → i ∈ idx k → i ∈ idx k' → k = k')
    {again : Bytes → List Bytes → List UV → Option (List UV × List Bytes × Option UErr)}
    (ha : ∀ k vis vs vs' vis', S k → again k vis vs = some (vs', vis', none) →
      (k ∈ vis' ∧ (∀ k ∈ vis, k ∈ vis') ∧ ∀ k ∈ vis', k ∈ vis ∨ S k) ∧ (∀ i, JustVisited idx vis vis' i → GotDoc tys assign vs vs' vis' i) ∧
      ∀ i, ¬ JustVisited idx vis vis' i → vs'[i]? = vs[i]?) {key : Bytes} (hS : S key) :
    ∀ (is : List Nat) (vis : List Bytes) (vs vs' : List UV) (vis' : List Bytes), setLoop tys assign again is vis vs = some (vs', vis', none) →
      key ∈ vis → is.Nodup → (∀ i ∈ is, i ∈ idx key) →
      ((∀ k ∈ vis, k ∈ vis') ∧ ∀ k ∈ vis', k ∈ vis ∨ S k) ∧ (∀ i, i ∈ is ∨ JustVisited idx vis vis' i → GotDoc tys assign vs vs' vis' i) ∧
      ∀ i, i ∉ is → ¬ JustVisited idx vis vis' i → vs'[i]? = vs[i]?
  | [], vis, vs, vs', vis', h, _, _, _ => by
    simp only [setLoop, Option.some.injEq, Prod.mk.injEq, and_true] at h
    obtain ⟨rfl, rfl⟩ := h
    refine ⟨⟨fun _ h => h, fun _ h => .inl h⟩, ?_, fun _ _ _ => rfl⟩
    rintro i (h | ⟨k, _, h1, h2⟩)
    · cases h
    · exact absurd h1 h2
  | i :: is, vis, vs, vs', vis', h, hkey, hnd, hidx => by
    obtain ⟨hni, hnd'⟩ := List.nodup_cons.1 hnd
    have hik : i ∈ idx key := hidx i (List.mem_cons_self ..)
    have hidx' : ∀ i ∈ is, i ∈ idx key := fun j hj => hidx j (List.mem_cons_of_mem _ hj)
    simp only [setLoop] at h
    split at h
    · rename_i info t v hty hv
      have hlt := (List.getElem?_eq_some_iff.1 hv).1
      split at h
      · cases h
      · cases h
      · rename_i v' has
        have hself : (vs.set i v')[i]? = some v' := List.getElem?_set_self hlt
        have hoth : ∀ q, q ≠ i → (vs.set i v')[q]? = vs[q]? := fun q hq => List.getElem?_set_ne (Ne.symm hq)
        -- `i` is not a field of another key
        have hnf : ∀ a b, key ∈ a → (∀ k ∈ b, k ∈ a ∨ S k) → ¬ JustVisited idx a b i := by
          rintro a b hka hb ⟨k, h1, h2, h3⟩
          rcases hb k h2 with h | h
          · exact h3 h
          · exact h3 (by rw [hd k key i h hS h1 hik]; exact hka)
        split at h
        · rename_i hdep
          obtain ⟨⟨m1, m2⟩, g, s⟩ := setLoop_each hcl hd ha hS is vis _ vs' vis' h hkey hnd' hidx'
          have hi := s i hni (hnf vis vis' hkey m2)
          refine ⟨⟨m1, m2⟩, ?_, ?_⟩
          · intro q hq
            by_cases hqi : q = i
            · subst hqi
              exact ⟨info, t, v, v', hty, hv, has, hi.trans hself, fun k hk => by rw [hdep] at hk; cases hk⟩
            · obtain ⟨a, b, c, d, e1, e2, e3⟩ := g q (by
                rcases hq with hq | hq
                · rcases List.mem_cons.1 hq with h | h
                  · exact absurd h hqi
                  · exact .inl h
                · exact .inr hq)
              exact ⟨a, b, c, d, e1, (hoth q hqi) ▸ e2, e3⟩
          · intro q hq hf
            have hqi : q ≠ i := fun h => hq (h ▸ List.mem_cons_self ..)
            exact (s q (fun h => hq (List.mem_cons_of_mem _ h)) hf).trans (hoth q hqi)
        · rename_i k hdep
          split at h
          · cases h
          · cases h
          · rename_i vs1 vis1 hag
            obtain ⟨⟨n0, n1, n2⟩, ga, sa⟩ := ha k vis _ vs1 vis1 (hcl key i info t k hS hik hty hdep) hag
            obtain ⟨⟨m1, m2⟩, g, s⟩ := setLoop_each hcl hd ha hS is vis1 _ vs' vis' h (n1 _ hkey) hnd' hidx'
            have hi1 := sa i (hnf vis vis1 hkey n2)
            have hi2 := s i hni (hnf vis1 vis' (n1 _ hkey) m2)
            -- the fields of the second half are not those of the first
            have hdis : ∀ q, JustVisited idx vis vis1 q → q ∉ is ∧ ¬ JustVisited idx vis1 vis' q := by
              rintro q ⟨k1, a1, a2, a3⟩
              have hs1 : S k1 := (n2 k1 a2).resolve_left a3
              refine ⟨fun hq => ?_, ?_⟩
              · exact a3 (by rw [hd k1 key q hs1 hS a1 (hidx' q hq)]; exact hkey)
              · rintro ⟨k2, b1, b2, b3⟩
                have hs2 : S k2 := (m2 k2 b2).resolve_left b3
                exact b3 (by rw [hd k2 k1 q hs2 hs1 b1 a1]; exact a2)
            refine ⟨⟨fun k hk => m1 k (n1 k hk), fun k hk => ?_⟩, ?_, ?_⟩
            · rcases m2 k hk with h | h
              · exact n2 k h
              · exact .inr h
            · intro q hq
              by_cases hqi : q = i
              · subst hqi
                refine ⟨info, t, v, v', hty, hv, has, (hi2.trans hi1).trans hself, fun k' hk' => ?_⟩
                rw [hdep] at hk'; cases hk'
                exact m1 _ n0
              · by_cases hf1 : JustVisited idx vis vis1 q
                · obtain ⟨a, b, c, d, e1, e2, e3, e4, e5⟩ := ga q hf1
                  obtain ⟨p1, p2⟩ := hdis q hf1
                  exact ⟨a, b, c, d, e1, (hoth q hqi) ▸ e2, e3, (s q p1 p2).trans e4, fun k hk => m1 k (e5 k hk)⟩
                · obtain ⟨a, b, c, d, e1, e2, e3⟩ := g q (by
                    rcases hq with hq | ⟨k2, b1, b2, b3⟩
                    · rcases List.mem_cons.1 hq with h | h
                      · exact absurd h hqi
                      · exact .inl h
                    · by_cases hk2 : k2 ∈ vis1
                      · exact absurd ⟨k2, b1, hk2, b3⟩ hf1
                      · exact .inr ⟨k2, b1, b2, hk2⟩)
                  exact ⟨a, b, c, d, e1, by rw [← hoth q hqi, ← sa q hf1]; exact e2, e3⟩
            · intro q hq hf
              have hqi : q ≠ i := fun h => hq (h ▸ List.mem_cons_self ..)
              have h1 : ¬ JustVisited idx vis vis1 q := fun ⟨k, b1, b2, b3⟩ => hf ⟨k, b1, m1 k b2, b3⟩
              have h2 : ¬ JustVisited idx vis1 vis' q := fun ⟨k, b1, b2, b3⟩ => hf ⟨k, b1, b2, fun h => b3 (n1 k h)⟩
              exact ((s q (fun h => hq (List.mem_cons_of_mem _ h)) h2).trans (sa q h1)).trans (hoth q hqi)
    · cases h

theorem setKey_each {S : Bytes → Prop} (hcl : ∀ k i info t k', S k → i ∈ idx k → tys[i]? = some (info, t) → info.deprecatedBy = some k' → S k')
    (hn : ∀ k, S k → (idx k).Nodup) (hd : ∀ k k' i, S k → S k' → i ∈ idx k → i ∈ idx k' → k = k') :
    ∀ (f : Nat) (key : Bytes) (vis : List Bytes) (vs vs' : List UV) (vis' : List Bytes), S key →
      setKey idx tys assign f key vis vs = some (vs', vis', none) →
      (key ∈ vis' ∧ (∀ k ∈ vis, k ∈ vis') ∧ ∀ k ∈ vis', k ∈ vis ∨ S k) ∧ (∀ i, JustVisited idx vis vis' i → GotDoc tys assign vs vs' vis' i) ∧
      ∀ i, ¬ JustVisited idx vis vis' i → vs'[i]? = vs[i]?
  | 0, _, _, _, _, _, _, h => by simp [setKey] at h
  | f + 1, key, vis, vs, vs', vis', hS, h => by
    simp only [setKey] at h
    split at h
    · rename_i hv
      simp only [Option.some.injEq, Prod.mk.injEq, and_true] at h
      obtain ⟨rfl, rfl⟩ := h
      exact ⟨⟨hv, fun _ h => h, fun _ h => .inl h⟩, fun i ⟨k, _, h1, h2⟩ => absurd h1 h2, fun _ _ => rfl⟩
    · rename_i hv
      obtain ⟨⟨m1, m2⟩, g, s⟩ := setLoop_each hcl hd (fun k vis vs vs' vis' hk => setKey_each hcl hn hd f k vis vs vs' vis' hk) hS _ _ _ _ _ h
        (List.mem_cons_self ..) (hn key hS) (fun _ h => h)
      have hk' := m1 key (List.mem_cons_self ..)
      have hsplit : ∀ i, JustVisited idx vis vis' i ↔ i ∈ idx key ∨ JustVisited idx (key :: vis) vis' i := by
        intro i
        constructor
        · rintro ⟨k, h1, h2, h3⟩
          by_cases he : k = key
          · subst he; exact .inl h1
          · exact .inr ⟨k, h1, h2, by simp [he, h3]⟩
        · rintro (h | ⟨k, h1, h2, h3⟩)
          · exact ⟨key, h, hk', hv⟩
          · exact ⟨k, h1, h2, fun h => h3 (List.mem_cons_of_mem _ h)⟩
      refine ⟨⟨hk', fun k hk => m1 k (List.mem_cons_of_mem _ hk), fun k hk => ?_⟩, fun i hi => g i ((hsplit i).1 hi), fun i hi => ?_⟩
      · rcases m2 k hk with h | h
        · rcases List.mem_cons.1 h with rfl | h
          · exact .inr hS
          · exact .inl h
        · exact .inr h
      · exact s i (fun h => hi ((hsplit i).2 (.inl h))) (fun h => hi ((hsplit i).2 (.inr h)))

theorem KeyLeads.trans {a b c : Bytes} (h : KeyLeads idx tys a b) (h' : KeyLeads idx tys b c) : KeyLeads idx tys a c := by
  induction h with
  | self => exact h'
  | next h1 h2 h3 _ ih => exact .next h1 h2 h3 (ih h')

theorem KeyLeads.touches {k k' : Bytes} (h : KeyLeads idx tys k k') {i : Nat} (hi : i ∈ idx k') : Touches idx tys k i := by
  induction h with
  | self => exact .here hi
  | next h1 h2 h3 _ ih => exact .there h1 h2 h3 (ih hi)

/-- One key, no error: the fields it stands for receive the document, the others keep their values. -/
theorem setKey_fields {f : Nat} {key : Bytes} (ho : OneName idx tys key) {vs vs' : List UV} {vis' : List Bytes}
    (h : setKey idx tys assign f key [] vs = some (vs', vis', none)) (i : Nat) :
    (Touches idx tys key i → ∃ info t v w, tys[i]? = some (info, t) ∧ vs[i]? = some v ∧ assign t v = uok w ∧ vs'[i]? = some w) ∧
    (¬ Touches idx tys key i → vs'[i]? = vs[i]?) := by
  obtain ⟨⟨m0, _, m2⟩, g, s⟩ := setKey_each (S := KeyLeads idx tys key) (fun k i info t k' h1 h2 h3 h4 => h1.trans (.next h2 h3 h4 (.self _)))
    ho.1 (fun k k' i h1 h2 => ho.2 k k' i h1 h2) f key [] vs vs' vis' (.self _) h
  have this : ∀ k, Touches idx tys k i → k ∈ vis' → JustVisited idx [] vis' i := by
    intro k hk
    induction hk with
    | here h1 => intro h2; exact ⟨_, h1, h2, by simp⟩
    | there h1 h2 h3 _ ih =>
      intro h4
      obtain ⟨_, _, _, _, e1, _, _, _, e5⟩ := g _ ⟨_, h1, h4, by simp⟩
      rw [h2] at e1; cases e1
      exact ih (e5 _ h3)
  constructor
  · intro ht
    obtain ⟨a, b, c, d, e1, e2, e3, e4, _⟩ := g i (this key ht m0)
    exact ⟨a, b, c, d, e1, e2, e3, e4⟩
  · intro ht
    refine s i ?_
    rintro ⟨k, h1, h2, _⟩
    exact ht (((m2 k h2).resolve_left (by simp)).touches h1)

/-- A whole dictionary, no error. -/
theorem unmf_fed {P : UEnv} {n : Nat} {q : Nat} {info : FInfo} {t : Ty} (hq : (P.defs.getD n [])[q]? = some (info, t)) :
    ∀ (kvs : List (Bytes × J)) (vs ws : List UV) (v : UV), (∀ k j, (k, j) ∈ kvs → OneName (P.idx n) (P.defs.getD n []) k) →
      J.unmf P kvs n vs = some (ws, []) → vs[q]? = some v →
      ∃ w, ws[q]? = some w ∧ Fed P t (fun k => Touches (P.idx n) (P.defs.getD n []) k q) kvs v w
  | [], vs, ws, v, _, h, hv => by
    simp only [J.unmf, Option.some.injEq, Prod.mk.injEq, and_true] at h
    subst h
    exact ⟨v, hv, .nil v⟩
  | (k, j) :: r, vs, ws, v, ho, h, hv => by
    simp only [J.unmf] at h
    split at h
    · cases h
    · rename_i vs' vis e hk
      cases hr : J.unmf P r n vs' with
      | none => rw [hr] at h; cases h
      | some p =>
        rw [hr] at h
        simp only [Option.map_some, Option.some.injEq, Prod.mk.injEq] at h
        obtain ⟨h1, h2⟩ := h
        have he : e = none := by cases e with
          | none => rfl
          | some x => cases h2
        subst he
        simp only at h2
        obtain ⟨p1, p2⟩ := p
        simp only at h1 h2
        subst h1 h2
        have hone := setKey_fields (ho k j (List.mem_cons_self ..)) hk q
        have hor : ∀ k j, (k, j) ∈ r → OneName (P.idx n) (P.defs.getD n []) k := fun k' j' hm => ho k' j' (List.mem_cons_of_mem _ hm)
        by_cases ht : Touches (P.idx n) (P.defs.getD n []) k q
        · obtain ⟨_, _, v0, v', e1, e2, e3, e4⟩ := hone.1 ht
          rw [hq] at e1; cases e1
          rw [hv] at e2; cases e2
          obtain ⟨w, g1, g2⟩ := unmf_fed hq r vs' _ v' hor hr e4
          exact ⟨w, g1, .feed ht e3 g2⟩
        · obtain ⟨w, g1, g2⟩ := unmf_fed hq r vs' _ v hor hr ((hone.2 ht).trans hv)
          exact ⟨w, g1, .skip ht g2⟩

end Jsonutils
