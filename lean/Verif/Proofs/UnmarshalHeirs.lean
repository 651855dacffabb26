import Verif.Proofs.UnmarshalTwice
import Verif.Proofs.MarshalStruct

/-! Structs with deprecated fields: what `Marshal` writes, and what `Unmarshal` makes of it. -/

namespace Jsonutils

/-- The chain of deprecated fields of type `t` from field `q` ends after `m` steps at field `e`. -/
inductive HeirIn (P : UEnv) (n : Nat) (fs : List (FInfo × Ty)) (t : Ty) : Nat → Nat → Nat → Prop where
  | zero {q i} : fs[q]? = some (i, t) → i.ignore = false → i.deprecatedBy = none → P.idx n i.name = [q] → HeirIn P n fs t 0 q q
  | succ {m q i k q' i' e} : fs[q]? = some (i, t) → i.ignore = false → i.deprecatedBy = some k → P.idx n i.name = [q] →
      fs[q']? = some (i', t) → i'.name = k → HeirIn P n fs t m q' e → HeirIn P n fs t (m + 1) q e

variable {P : UEnv} {n : Nat} {fs : List (FInfo × Ty)} {t : Ty}

theorem HeirIn.start {m q e : Nat} (h : HeirIn P n fs t m q e) : ∃ i, fs[q]? = some (i, t) ∧ i.ignore = false ∧ P.idx n i.name = [q] := by
  cases h with
  | zero a b c d => exact ⟨_, a, b, d⟩
  | succ a b c d => exact ⟨_, a, b, d⟩

theorem HeirIn.stop {m q e : Nat} (h : HeirIn P n fs t m q e) : ∃ i, fs[e]? = some (i, t) ∧ i.ignore = false ∧ i.deprecatedBy = none ∧ P.idx n i.name = [e] := by
  induction h with
  | zero a b c d => exact ⟨_, a, b, c, d⟩
  | succ _ _ _ _ _ _ _ ih => exact ih

theorem HeirIn.det {m q e : Nat} (h : HeirIn P n fs t m q e) : ∀ {m' e' : Nat} {t' : Ty}, HeirIn P n fs t' m' q e' → e = e' := by
  induction h with
  | zero a b c d =>
    intro m' e' t' h'
    cases h' with
    | zero => rfl
    | succ a' b' c' => rw [a] at a'; cases a'; rw [c] at c'; cases c'
  | succ a b c d a1 a2 h1 ih =>
    intro m' e' t' h'
    cases h' with
    | zero a' b' c' => rw [a] at a'; cases a'; rw [c] at c'; cases c'
    | succ a' b' c' d' a1' a2' h1' =>
      rw [a] at a'; cases a'; rw [c] at c'; cases c'
      obtain ⟨i1, e1, _, e2⟩ := h1.start
      obtain ⟨i2, e3, _, e4⟩ := h1'.start
      rw [a1] at e1; cases e1
      rw [a1'] at e3; cases e3
      rw [a2] at e2
      rw [a2', e2] at e4
      cases e4
      exact ih h1'

theorem heir_ignored {P : UEnv} {n : Nat} (hn : P.defs.getD n [] = fs) {q : Nat} {i : FInfo} (h : fs[q]? = some (i, t)) (hi : i.ignore = true) (f : Nat) :
    P.heir n f q = q := by
  cases f with
  | zero => rfl
  | succ f => simp only [UEnv.heir, hn, h, hi]

theorem heirIn_heir (hn : P.defs.getD n [] = fs)
    (hf : ∀ (k : Nat) (i : FInfo) (t : Ty), fs[k]? = some (i, t) → i.ignore = false → P.idx n i.name = [k] ∧
      ∀ key, i.deprecatedBy = some key → ∃ (q : Nat) (i' : FInfo), fs[q]? = some (i', t) ∧ i'.ignore = false ∧ i'.name = key) :
    ∀ (f q : Nat) (i : FInfo) (t : Ty), fs[q]? = some (i, t) → i.ignore = false → (∃ i' t', fs[P.heir n f q]? = some (i', t') ∧ i'.deprecatedBy = none) →
      ∃ m, m ≤ f ∧ HeirIn P n fs t m q (P.heir n f q)
  | 0, q, i, t, h, hi, ⟨i', t', h1, h2⟩ => by
    simp only [UEnv.heir] at h1 ⊢
    rw [h] at h1; cases h1
    exact ⟨0, Nat.le_refl _, .zero h hi h2 (hf q i t h hi).1⟩
  | f + 1, q, i, t, h, hi, hh => by
    cases hd : i.deprecatedBy with
    | none =>
      have he : P.heir n (f + 1) q = q := by simp only [UEnv.heir, hn, h, hi, hd]
      rw [he]
      exact ⟨0, by omega, .zero h hi hd (hf q i t h hi).1⟩
    | some k =>
      obtain ⟨q1, i1, h1, h2, h3⟩ := (hf q i t h hi).2 k hd
      have hidx := (hf q1 i1 t h1 h2).1
      have he : P.heir n (f + 1) q = P.heir n f q1 := by
        simp only [UEnv.heir, hn, h, hi, hd]
        rw [h3] at hidx
        rw [hidx]
      rw [he] at hh ⊢
      obtain ⟨m, hm, hh'⟩ := heirIn_heir hn hf f q1 i1 t h1 h2 hh
      exact ⟨m + 1, by omega, .succ h hi hd (hf q i t h hi).1 h1 h3 hh'⟩

theorem HeirIn.depEnd {dep : SMap Bytes} (h1 : ∀ (q : Nat) (i : FInfo) (t : Ty) k, fs[q]? = some (i, t) → i.ignore = false → i.deprecatedBy = some k → smGet dep i.name = some k)
    (h0 : ∀ (q : Nat) (i : FInfo) (t : Ty), fs[q]? = some (i, t) → i.ignore = false → i.deprecatedBy = none → smGet dep i.name = none)
    {m q e : Nat} (h : HeirIn P n fs t m q e) : ∀ {i ie : FInfo} {t' t'' : Ty}, fs[q]? = some (i, t') → fs[e]? = some (ie, t'') → DepEnd dep i.name ie.name := by
  induction h with
  | zero a b c d =>
    intro i ie t' t'' h h'
    rw [h] at h'; cases h'
    rw [h] at a; cases a
    exact .here (h0 _ _ _ h b c)
  | succ a b c d a1 a2 h2 ih =>
    intro i ie t' t'' h h'
    rw [h] at a; cases a
    have := ih a1 h'
    rw [a2] at this
    exact .next (h1 _ _ _ _ h b c) this

/-! ### What `Marshal` writes -/

section
variable {ord : SMap Bytes → List (Bytes × Bytes)} {oe : Bool} {vs : List UV} {tv : UV → Ty → TV}

/-- Field `e` is written by itself, as `v`. -/
def OwnEntry (ord : SMap Bytes → List (Bytes × Bytes)) (oe : Bool) (tv : UV → Ty → TV) (vs : List UV) (fs : List (FInfo × Ty)) (e : Nat) (v : J) : Prop :=
  ∃ y i t, vs[e]? = some y ∧ fs[e]? = some (i, t) ∧ i.ignore = false ∧ i.deprecatedBy = none ∧ (tv y t).mar ord oe (some i) = some (some v)

theorem depEnd_cases' {dep : SMap Bytes} {k e : Bytes} (h : DepEnd dep k e) : smGet dep k = none ∨ ∃ k', smGet dep k = some k' ∧ DepEnd dep k' e := by
  cases h with
  | here h => exact .inl h
  | next a b => exact .inr ⟨_, a, b⟩

theorem depEnd_cases {dep : SMap Bytes} {k e : Bytes} (h : DepEnd dep k e) : k = e ∨ ∃ k', smGet dep k = some k' ∧ DepEnd dep k' e := by
  cases h with
  | here _ => exact .inl rfl
  | next a b => exact .inr ⟨_, a, b⟩

theorem struct_doc_heirs (hord : ∀ dep, (ord dep).Perm dep) (hdist : DistinctNames fs)
    (hidx : ∀ (k : Nat) (i : FInfo) (t : Ty), fs[k]? = some (i, t) → i.ignore = false → P.idx n i.name = [k])
    (hheir : ∀ (q : Nat) (i : FInfo) (t : Ty), fs[q]? = some (i, t) → i.ignore = false → ∃ m e, HeirIn P n fs t m q e)
    (hlen : vs.length = fs.length) {ts : List (FInfo × TV)} (hmap : ts.map (·.1) = fs.map (·.1))
    (hmem : ∀ i x, (i, x) ∈ ts ↔ ∃ (k : Nat) (y : UV) (t : Ty), vs[k]? = some y ∧ fs[k]? = some (i, t) ∧ x = tv y t)
    {o : Option J} (ho : (TV.struct ts).mar ord oe none = some o) :
    ∃ m, o = some (.dict 0 m) ∧ SMap.Sorted m ∧
      (∀ k v, smGet m k = some v → ∃ (q : Nat) (i : FInfo) (t : Ty) (l e : Nat), fs[q]? = some (i, t) ∧ i.name = k ∧ HeirIn P n fs t l q e ∧ OwnEntry ord oe tv vs fs e v) ∧
      (∀ (q : Nat) (i : FInfo) (t : Ty) (l e : Nat) v, fs[q]? = some (i, t) → HeirIn P n fs t l q e → OwnEntry ord oe tv vs fs e v → smGet m i.name = some v) ∧
      (∀ (q : Nat) (y : UV) (i : FInfo) (t : Ty), vs[q]? = some y → fs[q]? = some (i, t) → i.ignore = false → i.deprecatedBy = none →
        ∃ o, (tv y t).mar ord oe (some i) = some o) := by
  simp only [TV.mar] at ho
  have hdist' : DistinctNames (ts) := by
    have key : ∀ {α β : Type} (a : List (FInfo × α)) (b : List (FInfo × β)), a.map (·.1) = b.map (·.1) → DistinctNames b → DistinctNames a := by
      intro α β a b h hd
      unfold DistinctNames at hd ⊢
      have : ∀ {γ : Type} (l : List (FInfo × γ)), (l.filter fun f => !f.1.ignore).map (·.1.name) = ((l.map (·.1)).filter fun i => !i.ignore).map (·.name) := by
        intro γ l
        rw [List.filter_map, List.map_map]; rfl
      rw [this] at hd ⊢
      rw [h]; exact hd
    exact key _ _ hmap hdist
  split at ho
  · cases ho
  · rename_i ps dep hr
    obtain ⟨hps, htot⟩ := marf_mem _ _ _ hr
    cases o with
    | none =>
      have := (structJ_none ho).1 rfl
      simp [optEmpty] at this
    | some j =>
      have hsp := struct_spec hord hdist' hr ho
      obtain ⟨m, rfl, hget⟩ := hsp
      have hsorted : SMap.Sorted m := by
        unfold structJ at ho
        split at ho
        · cases ho
        · split at ho
          · cases ho
          · simp only [Option.some.injEq, forceJ, optForce, Bool.false_eq_true, if_false, J.dict.injEq, true_and] at ho
            rw [← ho]; exact pairsDict_sorted _
      have hval : ∀ (q : Nat) (i : FInfo) (t : Ty), fs[q]? = some (i, t) → ∃ y, vs[q]? = some y := fun q i t h =>
        ⟨_, List.getElem?_eq_getElem (by rw [hlen]; exact (List.getElem?_eq_some_iff.1 h).1)⟩
      have hd1 : ∀ (q : Nat) (i : FInfo) (t : Ty) k, fs[q]? = some (i, t) → i.ignore = false → i.deprecatedBy = some k → smGet (depMap ts) i.name = some k := by
        intro q i t k h1 h2 h3
        obtain ⟨y, hy⟩ := hval q i t h1
        exact (depMap_iff ts hdist' _ _).2 ⟨i, _, (hmem i _).2 ⟨q, y, t, hy, h1, rfl⟩, h2, rfl, h3⟩
      have hd0 : ∀ (q : Nat) (i : FInfo) (t : Ty), fs[q]? = some (i, t) → i.ignore = false → i.deprecatedBy = none → smGet (depMap ts) i.name = none := by
        intro q i t h1 h2 h3
        cases hg : smGet (depMap ts) i.name with
        | none => rfl
        | some k =>
          obtain ⟨i', x, a, b, c, d⟩ := depMap_mem _ _ _ hg
          obtain ⟨q', y, t', _, e2, _⟩ := (hmem i' x).1 a
          have g1 := hidx q' i' t' e2 b
          rw [c, hidx q i t h1 h2] at g1
          cases g1
          rw [h1] at e2; cases e2
          rw [h3] at d; cases d
      have hpsW : ∀ k v, (k, v) ∈ ps ↔ ∃ e i t, fs[e]? = some (i, t) ∧ i.name = k ∧ OwnEntry ord oe tv vs fs e v := by
        intro k v
        rw [hps]
        constructor
        · rintro ⟨i, x, a, b, c, d⟩
          obtain ⟨q, y, t, e1, e2, rfl⟩ := (hmem i x).1 a
          exact ⟨q, i, t, e2, c, y, i, t, e1, e2, b.1, b.2, d⟩
        · rintro ⟨e, i, t, h1, h2, y, i', t', e1, e2, e3, e4, e5⟩
          rw [h1] at e2; cases e2
          exact ⟨i, _, (hmem i _).2 ⟨e, y, t, e1, h1, rfl⟩, ⟨e3, e4⟩, h2, e5⟩
      refine ⟨m, rfl, hsorted, ?_, ?_, ?_⟩
      · intro k v hkv
        rcases (hget k v).1 hkv with h | ⟨k', e', h1, h2, h3⟩
        · obtain ⟨e, i, t, g1, g2, hW⟩ := (hpsW k v).1 h
          obtain ⟨y, i', t', e1, e2, e3, e4, e5⟩ := hW
          rw [g1] at e2; cases e2
          exact ⟨e, i, t, 0, e, g1, g2, .zero g1 e3 e4 (hidx e i t g1 e3), y, i, t, e1, g1, e3, e4, e5⟩
        · obtain ⟨i, x, a, b, c, d⟩ := depMap_mem _ _ _ h1
          obtain ⟨q, y, t, e1, e2, _⟩ := (hmem i x).1 a
          obtain ⟨l, e, hh⟩ := hheir q i t e2 b
          obtain ⟨ew, iw, tw, g1, g2, hW⟩ := (hpsW e' v).1 h3
          obtain ⟨ie, s1, s2, s3, s4⟩ := hh.stop
          have hde := hh.depEnd hd1 hd0 e2 s1
          have hkk := hd1 q i t k' e2 b d
          rcases depEnd_cases' hde with hx | ⟨k1, hx, hy⟩
          · rw [hkk] at hx; cases hx
          · rw [hkk] at hx; cases hx
            have hname := depEnd_unique hy h2
            obtain ⟨y2, i2, t2, w1, w2, w3, w4, w5⟩ := hW
            rw [g1] at w2; cases w2
            have := hidx ew iw tw g1 w3
            rw [g2, ← hname, s4] at this
            cases this
            exact ⟨q, i, t, l, e, e2, c, hh, y2, iw, tw, w1, g1, w3, w4, w5⟩
      · intro q i t l e v h1 hh hW
        rw [hget]
        obtain ⟨ie, s1, s2, s3, s4⟩ := hh.stop
        have hin : (ie.name, v) ∈ ps := (hpsW _ _).2 ⟨e, ie, t, s1, rfl, hW⟩
        have hde := hh.depEnd hd1 hd0 h1 s1
        rcases depEnd_cases hde with h | ⟨k', g1, g2⟩
        · rw [h]; exact .inl hin
        · exact .inr ⟨_, _, g1, g2, hin⟩
      · intro q y i t e1 e2 e3 e4
        exact htot i _ ((hmem i _).2 ⟨q, y, t, e1, e2, rfl⟩) ⟨e3, e4⟩
end

/-! ### What `Unmarshal` makes of it -/

/-- `j` goes into every field on the way to `e`, whatever good value (`G`) this holds, and makes `W` of it. -/
theorem setKey_chain {j : J} {e : Nat} {G : Nat → UV → Prop} {W : Nat → UV} {m q : Nat} (h : HeirIn P n fs t m q e)
    (hj : ∀ m' p x, HeirIn P n fs t m' p e → G p x → j.unm P t x = uok (W p)) (hG : ∀ m' p, HeirIn P n fs t m' p e → G p (W p)) :
    ∀ (f : Nat) (vis : List Bytes) (vs : List UV) (key : Bytes), m < f → (∃ i, fs[q]? = some (i, t) ∧ i.name = key) →
      (∀ m' p, HeirIn P n fs t m' p e → ∃ x, vs[p]? = some x ∧ G p x) →
      ∃ vs' vis', setKey (P.idx n) fs (fun t v => j.unm P t v) f key vis vs = some (vs', vis', none) ∧ vs'.length = vs.length ∧
        (key ∉ vis → vs'[q]? = some (W q)) ∧ ∀ p, vs'[p]? = vs[p]? ∨ ((∃ m', HeirIn P n fs t m' p e) ∧ vs'[p]? = some (W p)) := by
  induction h with
  | @zero q i a b c d =>
    intro f vis vs key hf ⟨i0, hk1, hk2⟩ hst
    rw [a] at hk1; cases hk1
    obtain ⟨f, rfl⟩ : ∃ g, f = g + 1 := ⟨f - 1, by omega⟩
    simp only [setKey]
    by_cases hv : key ∈ vis
    · rw [if_pos hv]
      exact ⟨vs, vis, rfl, rfl, fun h => absurd hv h, fun _ => .inl rfl⟩
    · rw [if_neg hv]
      have hself := HeirIn.zero (P := P) (n := n) a b c d
      obtain ⟨x, hx, hg⟩ := hst 0 q hself
      have hu := hj 0 q x hself hg
      have hlt := (List.getElem?_eq_some_iff.1 hx).1
      rw [hk2] at d
      refine ⟨vs.set q (W q), key :: vis, by simp only [d, setLoop, a, hx, hu, uok, c], by simp, fun _ => List.getElem?_set_self hlt, fun p => ?_⟩
      by_cases hp : p = q
      · subst hp; exact .inr ⟨⟨0, hself⟩, List.getElem?_set_self hlt⟩
      · exact .inl (List.getElem?_set_ne (Ne.symm hp))
  | @succ m q i k q' i' e a b c d a1 a2 h1 ih =>
    intro f vis vs key hf ⟨i0, hk1, hk2⟩ hst
    rw [a] at hk1; cases hk1
    obtain ⟨f, rfl⟩ : ∃ g, f = g + 1 := ⟨f - 1, by omega⟩
    simp only [setKey]
    by_cases hv : key ∈ vis
    · rw [if_pos hv]
      exact ⟨vs, vis, rfl, rfl, fun h => absurd hv h, fun _ => .inl rfl⟩
    · rw [if_neg hv]
      have hself := HeirIn.succ a b c d a1 a2 h1
      obtain ⟨x, hx, hg⟩ := hst _ q hself
      have hu := hj _ q x hself hg
      have hlt := (List.getElem?_eq_some_iff.1 hx).1
      have hset : ∀ p, (vs.set q (W q))[p]? = vs[p]? ∨ (p = q ∧ (vs.set q (W q))[p]? = some (W q)) := by
        intro p
        by_cases hp : p = q
        · subst hp; exact .inr ⟨rfl, List.getElem?_set_self hlt⟩
        · exact .inl (List.getElem?_set_ne (Ne.symm hp))
      rw [hk2] at d
      obtain ⟨vs', vis', g1, g2, _, g4⟩ := ih hj hG f (key :: vis) (vs.set q (W q)) k (by omega) ⟨i', a1, a2⟩ (by
        intro m' p hp
        rcases hset p with h | ⟨rfl, h⟩
        · rw [h]; exact hst m' p hp
        · exact ⟨_, h, hG _ _ hp⟩)
      refine ⟨vs', vis', by simp only [d, setLoop, a, hx, hu, uok, c, g1], by rw [g2]; simp, fun _ => ?_, fun p => ?_⟩
      · rcases g4 q with h | ⟨_, h⟩
        · rw [h]; exact List.getElem?_set_self hlt
        · exact h
      · rcases g4 p with h | h
        · rcases hset p with h' | ⟨rfl, h'⟩
          · exact .inl (h.trans h')
          · exact .inr ⟨⟨_, hself⟩, h.trans h'⟩
        · exact .inr h

/-- An entry of the dictionary: a document for all fields with the same heir. -/
def HeirEntry (P : UEnv) (n : Nat) (fs : List (FInfo × Ty)) (G : Nat → UV → Prop) (W : Nat → UV) (k : Bytes) (j : J) (q e : Nat) : Prop :=
  ∃ i t m, fs[q]? = some (i, t) ∧ i.name = k ∧ HeirIn P n fs t m q e ∧ m ≤ fs.length ∧ ∀ m' p x, HeirIn P n fs t m' p e → G p x → j.unm P t x = uok (W p)

theorem unmf_heirs (hn : P.defs.getD n [] = fs) {G : Nat → UV → Prop} {W : Nat → UV} : ∀ (kvs : List (Bytes × J)) (vs : List UV),
    (∀ t m p e, HeirIn P n fs t m p e → ∃ x, vs[p]? = some x ∧ G p x) →
    (∀ k j, (k, j) ∈ kvs → ∃ q e, HeirEntry P n fs G W k j q e ∧ ∀ t m p, HeirIn P n fs t m p e → G p (W p)) →
    ∃ vs', J.unmf P kvs n vs = some (vs', []) ∧ vs'.length = vs.length ∧
      (∀ p, vs'[p]? = vs[p]? ∨ ∃ k j q e t m, (k, j) ∈ kvs ∧ HeirEntry P n fs G W k j q e ∧ HeirIn P n fs t m p e ∧ vs'[p]? = some (W p)) ∧
      ∀ k j q e, (k, j) ∈ kvs → HeirEntry P n fs G W k j q e → vs'[q]? = some (W q)
  | [], vs, _, _ => ⟨vs, rfl, rfl, fun _ => .inl rfl, fun _ _ _ _ h => by cases h⟩
  | (k, j) :: r, vs, hst, hall => by
    obtain ⟨q, e, ⟨i, t, m, h1, h2, h3, h4, h5⟩, hG⟩ := hall k j (List.mem_cons_self ..)
    obtain ⟨vs1, vis1, g1, g2, g3, g4⟩ := setKey_chain h3 h5 (fun m' p hp => hG t m' p hp) (fs.length + 2) [] vs k (by omega) ⟨i, h1, h2⟩ (fun m' p hp => hst t m' p e hp)
    have hst1 : ∀ t m p e, HeirIn P n fs t m p e → ∃ x, vs1[p]? = some x ∧ G p x := by
      intro t' m' p e' hp
      rcases g4 p with h | ⟨⟨m'', hp'⟩, h⟩
      · rw [h]; exact hst t' m' p e' hp
      · exact ⟨_, h, hG _ _ _ hp'⟩
    obtain ⟨vs', f1, f2, f3, f4⟩ := unmf_heirs hn r vs1 hst1 fun k' j' hm => hall k' j' (List.mem_cons_of_mem _ hm)
    have hentry : HeirEntry P n fs G W k j q e := ⟨i, t, m, h1, h2, h3, h4, h5⟩
    refine ⟨vs', ?_, f2.trans g2, ?_, ?_⟩
    · simp only [J.unmf, hn, g1, f1, Option.map_some]
    · intro p
      rcases f3 p with h | ⟨k', j', q', e', t', m', a, b⟩
      · rcases g4 p with h' | ⟨⟨m', hp⟩, h'⟩
        · exact .inl (h.trans h')
        · exact .inr ⟨k, j, q, e, t, m', List.mem_cons_self .., hentry, hp, h.trans h'⟩
      · exact .inr ⟨k', j', q', e', t', m', List.mem_cons_of_mem _ a, b⟩
    · intro k' j' q' e' hm he
      rcases List.mem_cons.1 hm with hm | hm
      · cases hm
        obtain ⟨i', t', m', e1, e2, e3, _⟩ := he
        obtain ⟨i1, x1, x2, x3⟩ := h3.start
        obtain ⟨i2, y1, y2, y3⟩ := e3.start
        rw [h1] at x1; cases x1
        rw [e1] at y1; cases y1
        rw [h2] at x3
        rw [e2, x3] at y3
        cases y3
        rcases f3 q with h | ⟨_, _, _, e'', t'', m'', _, _, hh, h⟩
        · rw [h]; exact g3 (by simp)
        · exact h
      · exact f4 k' j' q' e' hm he

end Jsonutils
