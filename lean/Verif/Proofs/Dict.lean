import Verif.Spec.Dict
import Verif.Proofs.ParseMore

/-! Lemmas about dictionaries. -/

namespace Jsonutils

variable {α : Type}

theorem smAdd_same (m : SMap α) (h : SMap.Sorted m) (k : Bytes) (v : α) (hk : smGet m k = some v) : smAdd m k v = m := by
  apply sorted_ext (sorted_smAdd h k v) h
  intro k'
  rw [smGet_smAdd m h]
  split
  · subst_vars; exact hk.symm
  · rfl

theorem smAdd_smAdd (m : SMap α) (h : SMap.Sorted m) (k : Bytes) (v w : α) : smAdd (smAdd m k v) k w = smAdd m k w := by
  apply sorted_ext (sorted_smAdd (sorted_smAdd h k v) k w) (sorted_smAdd h k w)
  intro k'
  rw [smGet_smAdd _ (sorted_smAdd h k v), smGet_smAdd m h, smGet_smAdd m h]
  split <;> simp_all

/-! ### filters -/

theorem sorted_filter {m : SMap α} (h : SMap.Sorted m) (p : Bytes × α → Bool) : SMap.Sorted (m.filter p) :=
  List.Pairwise.filter p h

theorem smGet_filter_key (m : SMap α) (q : Bytes → Bool) (k : Bytes) :
    smGet (m.filter fun kv => q kv.1) k = if q k then smGet m k else none := by
  induction m with
  | nil => simp [smGet]
  | cons e m ih =>
    obtain ⟨k', v⟩ := e
    by_cases hq : q k'
    · rw [List.filter_cons_of_pos (by simpa using hq)]
      simp only [smGet]
      by_cases hk : k' = k
      · subst hk; simp [hq]
      · simp [hk, ih]
    · rw [List.filter_cons_of_neg (by simpa using hq), ih]
      simp only [smGet]
      by_cases hk : k' = k
      · subst hk; simp [hq]
      · simp [hk]

theorem smDelete_eq {m : SMap α} (h : SMap.Sorted m) (k : Bytes) :
    smDelete m k = (m.filter fun kv => decide (kv.1 ≠ k), (smGet m k).isSome) := by
  induction m with
  | nil => simp [smDelete, smGet]
  | cons e m ih =>
    obtain ⟨k', v⟩ := e
    have hc := sorted_cons.1 h
    simp only [smDelete, smGet]
    by_cases hk : k' = k
    · subst hk
      simp only [if_true]
      rw [List.filter_cons_of_neg (by simp)]
      rw [List.filter_eq_self.2]
      · simp
      · intro e he
        have := blt_ne (hc.1 e he)
        simp; exact fun h => this h.symm
    · rw [if_neg hk, if_neg hk, List.filter_cons_of_pos (by simpa using hk), ih hc.2]

theorem smDeleteFold_spec (fold : Bytes → Bytes) (m : SMap α) (k : Bytes) :
    (smDeleteFold fold m k).2 = m.any (fun kv => decide (fold kv.1 = fold k)) ∧
    ((smDeleteFold fold m k).2 = true → (smDeleteFold fold m k).1.length + 1 = m.length) ∧
    ((smDeleteFold fold m k).2 = false → (smDeleteFold fold m k).1 = m) ∧
    ((smDeleteFold fold m k).1.filter fun kv => decide (fold kv.1 ≠ fold k)) = m.filter fun kv => decide (fold kv.1 ≠ fold k) := by
  induction m with
  | nil => simp [smDeleteFold]
  | cons e m ih =>
    obtain ⟨k', v⟩ := e
    simp only [smDeleteFold]
    by_cases hk : fold k' = fold k
    · simp [hk]
    · simp only [hk, if_false]
      obtain ⟨a, b, c, d⟩ := ih
      refine ⟨by simp [a, hk], fun h => by simp [b h], fun h => by simp [c h], ?_⟩
      rw [List.filter_cons_of_pos (by simpa using hk), List.filter_cons_of_pos (by simpa using hk), d]

theorem dictRemoveFold_spec (fold : Bytes → Bytes) (f : Nat) (m : SMap J) (k : Bytes) (b : Bool) (hf : m.length < f) :
    dictRemoveFold fold f m k b =
      some (m.filter fun kv => decide (fold kv.1 ≠ fold k), b || m.any fun kv => decide (fold kv.1 = fold k)) := by
  induction f generalizing m b with
  | zero => omega
  | succ f ih =>
    obtain ⟨s1, s2, s3, s4⟩ := smDeleteFold_spec fold m k
    simp only [dictRemoveFold]
    by_cases hd : (smDeleteFold fold m k).2 = true
    · rw [if_pos hd, ih _ _ (by have := s2 hd; omega), s4]
      rw [hd] at s1
      rw [← s1]
      simp
    · rw [if_neg hd]
      have hd' : (smDeleteFold fold m k).2 = false := by simpa using hd
      rw [s3 hd']
      rw [hd'] at s1
      rw [← s1, List.filter_eq_self.2]
      · simp
      · intro e he
        have : m.any (fun kv => decide (fold kv.1 = fold k)) = false := s1.symm
        rw [List.any_eq_false] at this
        simpa using this e he

/-! ### merge -/

theorem sorted_smMerge {a : SMap α} (h : SMap.Sorted a) (b : SMap α) : SMap.Sorted (smMerge a b) := sorted_foldl_smAdd b a h

theorem lastValue_sorted {m : SMap α} (h : SMap.Sorted m) (k : Bytes) : lastValue m k = smGet m k := by
  have h1 := smGet_foldl_smAdd m [] sorted_nil k
  rw [foldl_smAdd_sorted m [] (by simpa using h)] at h1
  simp [smGet] at h1
  exact h1.symm

theorem smGet_smMerge {a b : SMap α} (ha : SMap.Sorted a) (hb : SMap.Sorted b) (k : Bytes) :
    smGet (smMerge a b) k = (smGet b k).or (smGet a k) := by
  unfold smMerge
  rw [smGet_foldl_smAdd b a ha, lastValue_sorted hb]

/-! ### histories -/

theorem WF_dict_sorted {id : Int} {kvs : SMap J} (h : (J.dict id kvs).WF) : SMap.Sorted kvs := by
  simp only [J.WF] at h; exact h.1

theorem dictUpdate_sorted {kvs : SMap J} (h : SMap.Sorted kvs) (o : J) : SMap.Sorted (dictUpdate kvs o) := by
  unfold dictUpdate; split
  · exact sorted_smMerge h _
  · exact h

theorem smGet_dictUpdate {kvs : SMap J} (h : SMap.Sorted kvs) (o : J) (ho : o.WF) (k : Bytes) :
    smGet (dictUpdate kvs o) k = (o.asMap k).or (smGet kvs k) := by
  cases o with
  | dict id kvs2 => exact smGet_smMerge h (WF_dict_sorted ho) k
  | _ => simp [dictUpdate, J.asMap]

theorem dictUpdateDefault_sorted {kvs : SMap J} (h : SMap.Sorted kvs) (o : J) (ho : o.WF) :
    SMap.Sorted (dictUpdateDefault kvs o) := by
  cases o with
  | dict id kvs2 => exact sorted_smMerge (WF_dict_sorted ho) _
  | _ => exact h

theorem smGet_dictUpdateDefault {kvs : SMap J} (h : SMap.Sorted kvs) (o : J) (ho : o.WF) (k : Bytes) :
    smGet (dictUpdateDefault kvs o) k = (smGet kvs k).or (o.asMap k) := by
  cases o with
  | dict id kvs2 => exact smGet_smMerge (WF_dict_sorted ho) h k
  | _ => simp [dictUpdateDefault, J.asMap]

theorem DOp.run_spec (fold : Bytes → Bytes) {kvs : SMap J} (h : SMap.Sorted kvs) (op : DOp) (ho : op.ArgOk) :
    ∃ kvs' r, op.run fold kvs = some (kvs', r) ∧ SMap.Sorted kvs' ∧ smGet kvs' = op.spec fold (smGet kvs) ∧
      FlagOk r (op.reports fold (smGet kvs)) := by
  cases op with
  | set k v =>
    refine ⟨_, _, rfl, sorted_smAdd h k v, ?_, trivial⟩
    funext k'
    rw [smGet_smAdd kvs h]
    simp only [DOp.spec, eq_comm]
  | remove k =>
    refine ⟨_, _, rfl, ?_, ?_, ?_⟩
    · simp only [dictRemove, smDelete_eq h]; exact sorted_filter h _
    · funext k'
      simp only [dictRemove, smDelete_eq h, DOp.spec]
      rw [smGet_filter_key kvs (fun x => decide (x ≠ k))]
      by_cases hk : k' = k <;> simp [hk]
    · simp [dictRemove, smDelete_eq h, DOp.reports, FlagOk]
  | removeIgnoreCase k =>
    refine ⟨_, some (false || kvs.any fun kv => decide (fold kv.1 = fold k)), ?_,
      sorted_filter h fun kv => decide (fold kv.1 ≠ fold k), ?_, ?_⟩
    · simp only [DOp.run]
      rw [dictRemoveFold_spec fold _ kvs k false (by omega)]
      simp only [Option.map_some]
    · funext k'
      rw [smGet_filter_key kvs (fun x => decide (fold x ≠ fold k))]
      simp only [DOp.spec]
      by_cases hk : fold k' = fold k <;> simp [hk]
    · simp only [FlagOk, DOp.reports, Bool.false_or, List.any_eq_true, decide_eq_true_eq]
      constructor
      · rintro ⟨⟨k', v⟩, h1, h2⟩
        exact ⟨k', h2, by rw [smGet_of_mem h h1]; rfl⟩
      · rintro ⟨k', h1, h2⟩
        obtain ⟨v, hv⟩ := Option.isSome_iff_exists.1 h2
        exact ⟨(k', v), smGet_mem hv, h1⟩
  | update o =>
    exact ⟨_, _, rfl, dictUpdate_sorted h o, funext fun k => smGet_dictUpdate h o ho k, trivial⟩
  | updateDefault o =>
    exact ⟨_, _, rfl, dictUpdateDefault_sorted h o ho, funext fun k => smGet_dictUpdateDefault h o ho k, trivial⟩

theorem runOps_spec (fold : Bytes → Bytes) (ops : List DOp) {kvs : SMap J} (h : SMap.Sorted kvs) (ho : ∀ op ∈ ops, op.ArgOk) :
    ∃ kvs' rs, runOps fold kvs ops = some (kvs', rs) ∧ SMap.Sorted kvs' ∧ smGet kvs' = specOps fold (smGet kvs) ops ∧
      FlagsOk fold (smGet kvs) ops rs := by
  induction ops generalizing kvs with
  | nil => exact ⟨kvs, [], rfl, h, rfl, trivial⟩
  | cons op ops ih =>
    obtain ⟨k1, r, a, b, c, d⟩ := op.run_spec fold h (ho op (by simp))
    obtain ⟨k2, rs, a', b', c', d'⟩ := ih b (fun o hm => ho o (by simp [hm]))
    refine ⟨k2, r :: rs, ?_, b', ?_, ?_⟩
    · simp only [runOps, a, a']
    · rw [c', c]; rfl
    · exact ⟨d, c ▸ d'⟩

/-! ### paths -/

theorem getLoop_eq (kvs : SMap J) (k : Bytes) (ks : List Bytes) :
    getLoop smGet kvs (k :: ks) = match ks, smGet kvs k with
      | _, none => .err .keyNotFound
      | [], some v => .ok v
      | ks, some (.dict _ kvs') => getLoop smGet kvs' ks
      | _, some _ => .err .invalidDict := by
  cases ks with
  | nil =>
    rw [getLoop.eq_def]
    simp only
    cases smGet kvs k <;> rfl
  | cons k2 ks =>
    rw [getLoop.eq_def]
    simp only
    cases smGet kvs k with
    | none => rfl
    | some v => cases v <;> rfl

theorem getLoop_ok_iff (kvs : SMap J) (id : Int) (ks : List Bytes) (hne : ks ≠ []) (w : J) :
    getLoop smGet kvs ks = .ok w ↔ Walks (.dict id kvs) ks w := by
  induction ks generalizing kvs id with
  | nil => exact absurd rfl hne
  | cons k ks ih =>
    rw [getLoop_eq]
    constructor
    · intro h
      cases hg : smGet kvs k with
      | none => rw [hg] at h; simp at h
      | some v =>
        rw [hg] at h
        cases ks with
        | nil => simp at h; subst h; exact .step hg (.here _)
        | cons k2 ks =>
          cases v <;> simp at h
          exact .step hg ((ih _ _ (by simp)).1 h)
    · intro h
      cases h with
      | step hg hw =>
        rw [hg]
        cases ks with
        | nil => cases hw; rfl
        | cons k2 ks =>
          cases hw with
          | step hg2 hw2 =>
            simp only
            exact (ih _ 0 (by simp)).2 (.step hg2 hw2)

theorem get_ok_iff (id : Int) (kvs : SMap J) (ks : List Bytes) (w : J) :
    (J.dict id kvs).get ks = .ok w ↔ Walks (.dict id kvs) ks w := by
  cases ks with
  | nil =>
    simp only [J.get, dictGet, Res.ok.injEq]
    constructor
    · rintro rfl; exact .here _
    · intro h; cases h; rfl
  | cons k ks =>
    simp only [J.get, dictGet]
    exact getLoop_ok_iff kvs id (k :: ks) (by simp) w

theorem Walks.fun {v : J} {ks : List Bytes} {w w' : J} (h : Walks v ks w) (h' : Walks v ks w') : w = w' := by
  induction h with
  | here v => cases h'; rfl
  | step hg _ ih =>
    cases h' with
    | step hg' hw' =>
      rw [hg] at hg'
      cases hg'
      exact ih hw'

theorem Walks.append {v w u : J} {p q : List Bytes} (h : Walks v p w) (h' : Walks w q u) : Walks v (p ++ q) u := by
  induction h with
  | here v => exact h'
  | step hg _ ih => exact .step hg (ih h')

theorem Walks.split {v u : J} {p q : List Bytes} (h : Walks v (p ++ q) u) : ∃ w, Walks v p w ∧ Walks w q u := by
  induction p generalizing v with
  | nil => exact ⟨v, .here v, h⟩
  | cons k p ih =>
    cases h with
    | step hg hw =>
      obtain ⟨w, a, b⟩ := ih hw
      exact ⟨w, .step hg a, b⟩

theorem getLoop_err (kvs : SMap J) (id : Int) (ks : List Bytes) (hne : ks ≠ []) (e : AErr) (h : getLoop smGet kvs ks = .err e) :
    (e = .keyNotFound ∧ ∃ p k q i m, ks = p ++ k :: q ∧ Walks (.dict id kvs) p (.dict i m) ∧ smGet m k = none) ∨
    (e = .invalidDict ∧ ∃ p k q o, ks = p ++ k :: q ∧ p ≠ [] ∧ Walks (.dict id kvs) p o ∧ ¬ o.IsDict) := by
  induction ks generalizing kvs id with
  | nil => exact absurd rfl hne
  | cons k ks ih =>
    rw [getLoop_eq] at h
    cases hg : smGet kvs k with
    | none =>
      rw [hg] at h
      simp at h
      exact Or.inl ⟨h.symm, [], k, ks, id, kvs, rfl, .here _, hg⟩
    | some v =>
      rw [hg] at h
      cases ks with
      | nil => simp at h
      | cons k2 ks =>
        cases v with
        | dict i m =>
          simp only at h
          rcases ih m i (by simp) h with ⟨a, p, k', q, i', m', h1, h2, h3⟩ | ⟨a, p, k', q, o, h1, h2, h3, h4⟩
          · exact Or.inl ⟨a, k :: p, k', q, i', m', by rw [h1]; rfl, .step hg h2, h3⟩
          · exact Or.inr ⟨a, k :: p, k', q, o, by rw [h1]; rfl, by simp, .step hg h3, h4⟩
        | _ =>
          simp only [Res.err.injEq] at h
          exact Or.inr ⟨h.symm, [k], k2, ks, _, rfl, by simp, .step hg (.here _), by simp [J.IsDict]⟩

theorem getLoop_ne_diverge (kvs : SMap J) (ks : List Bytes) : getLoop smGet kvs ks ≠ .diverge := by
  induction ks generalizing kvs with
  | nil => simp [getLoop]
  | cons k ks ih =>
    rw [getLoop_eq]
    cases hg : smGet kvs k with
    | none => simp
    | some v =>
      cases ks with
      | nil => simp
      | cons k2 ks =>
        cases v <;> simp
        exact ih _

/-! ### Add along a path -/

/-- The value at `k`, with a missing or null level replaced by an empty dictionary. -/
def levelAt (kvs : SMap J) (k : Bytes) : J :=
  match smGet kvs k with
  | none => .dict 0 []
  | some .null => .dict 0 []
  | some v => v

theorem dictAdd_cons2 (kvs : SMap J) (h : SMap.Sorted kvs) (o : J) (k k2 : Bytes) (ks : List Bytes) :
    dictAdd kvs o (k :: k2 :: ks) = match levelAt kvs k with
      | .dict id sub => (smAdd kvs k (.dict id (dictAdd sub o (k2 :: ks)).1), (dictAdd sub o (k2 :: ks)).2)
      | _ => (kvs, some .invalidDict) := by
  rw [dictAdd.eq_def]
  simp only [levelAt]
  cases hg : smGet kvs k with
  | none =>
    simp only [smGet_smAdd kvs h, if_true, smAdd_smAdd kvs h]
  | some v =>
    cases v with
    | null => simp only [smGet_smAdd kvs h, if_true, smAdd_smAdd kvs h]
    | _ => simp only [hg]

theorem dictAdd_empty (o : J) (ks : List Bytes) : (dictAdd [] o ks).2 = none := by
  induction ks with
  | nil => rfl
  | cons k ks ih =>
    cases ks with
    | nil => rfl
    | cons k2 ks =>
      rw [dictAdd_cons2 _ sorted_nil]
      simp only [levelAt, smGet]
      exact ih

theorem wff_mem {kvs : List (Bytes × J)} (h : J.WFf kvs) {e : Bytes × J} (he : e ∈ kvs) : e.2.WF := by
  induction kvs with
  | nil => simp at he
  | cons e' kvs ih =>
    obtain ⟨k', v'⟩ := e'
    simp only [J.WFf] at h
    rcases List.mem_cons.1 he with rfl | he
    · exact h.1
    · exact ih h.2 he

theorem wff_of {kvs : List (Bytes × J)} (h : ∀ e ∈ kvs, e.2.WF) : J.WFf kvs := by
  induction kvs with
  | nil => trivial
  | cons e kvs ih => exact ⟨h _ (by simp), ih fun e he => h e (by simp [he])⟩

theorem wf_dict_iff {id : Int} {kvs : SMap J} : (J.dict id kvs).WF ↔ SMap.Sorted kvs ∧ ∀ e ∈ kvs, e.2.WF := by
  simp only [J.WF]
  exact ⟨fun h => ⟨h.1, fun e he => wff_mem h.2 he⟩, fun h => ⟨h.1, wff_of h.2⟩⟩

theorem wf_smGet {id : Int} {kvs : SMap J} (h : (J.dict id kvs).WF) {k : Bytes} {v : J} (hg : smGet kvs k = some v) : v.WF :=
  (wf_dict_iff.1 h).2 _ (smGet_mem hg)

theorem wf_smAdd {id : Int} {kvs : SMap J} (h : (J.dict id kvs).WF) (k : Bytes) {v : J} (hv : v.WF) :
    (J.dict id (smAdd kvs k v)).WF := by
  rw [wf_dict_iff] at h ⊢
  refine ⟨sorted_smAdd h.1 k v, fun e he => ?_⟩
  rcases mem_smAdd he with rfl | h'
  · exact hv
  · exact h.2 e h'

theorem levelAt_wf {id : Int} {kvs : SMap J} (h : (J.dict id kvs).WF) (k : Bytes) : (levelAt kvs k).WF := by
  unfold levelAt
  split
  · simp [J.WF, J.WFf, sorted_nil]
  · simp [J.WF, J.WFf, sorted_nil]
  · rename_i hg; exact wf_smGet h hg

theorem dictAdd_wf (kvs : SMap J) (id : Int) (h : (J.dict id kvs).WF) (o : J) (ho : o.WF) (ks : List Bytes) :
    (J.dict id (dictAdd kvs o ks).1).WF := by
  induction ks generalizing kvs id with
  | nil => exact h
  | cons k ks ih =>
    cases ks with
    | nil => exact wf_smAdd h k ho
    | cons k2 ks =>
      rw [dictAdd_cons2 _ (wf_dict_iff.1 h).1]
      have hl := levelAt_wf h k
      split
      · rename_i i sub heq
        rw [heq] at hl
        exact wf_smAdd h k (ih sub i hl)
      · exact h

/-- On error nothing changes, and the error is caused by a level that is present, not null and not a dictionary. -/
theorem dictAdd_err (kvs : SMap J) (id : Int) (h : (J.dict id kvs).WF) (o : J) (ks : List Bytes) (e : AErr)
    (he : (dictAdd kvs o ks).2 = some e) :
    (dictAdd kvs o ks).1 = kvs ∧ e = .invalidDict ∧
    ∃ p q x, ks = p ++ q ∧ p ≠ [] ∧ q ≠ [] ∧ Walks (.dict id kvs) p x ∧ x ≠ .null ∧ ¬ x.IsDict := by
  induction ks generalizing kvs id with
  | nil => simp [dictAdd] at he
  | cons k ks ih =>
    cases ks with
    | nil => simp [dictAdd] at he
    | cons k2 ks =>
      have hs := (wf_dict_iff.1 h).1
      rw [dictAdd_cons2 _ hs] at he ⊢
      cases hg : smGet kvs k with
      | none =>
        simp only [levelAt, hg] at he
        rw [dictAdd_empty] at he; simp at he
      | some v =>
        by_cases hn : v = .null
        · subst hn
          simp only [levelAt, hg] at he
          rw [dictAdd_empty] at he; simp at he
        · have hlv : levelAt kvs k = v := by
            unfold levelAt; rw [hg]; cases v <;> simp_all
          rw [hlv] at he ⊢
          cases v with
          | dict i sub =>
            simp only at he ⊢
            obtain ⟨a, b, p, q, x, h1, h2, h3, h4, h5, h6⟩ := ih sub i (wf_smGet h hg) he
            rw [a]
            refine ⟨smAdd_same kvs hs k _ hg, b, k :: p, q, x, by rw [h1]; rfl, by simp, h3, .step hg h4, h5, h6⟩
          | _ =>
            simp only [Option.some.injEq] at he ⊢
            refine ⟨trivial, he.symm, [k], k2 :: ks, _, rfl, by simp, by simp, .step hg (.here _), by simp_all, by simp [J.IsDict]⟩

/-- Success: the value is at the path. -/
theorem dictAdd_get (kvs : SMap J) (id : Int) (h : (J.dict id kvs).WF) (o : J) (ks : List Bytes) (hne : ks ≠ [])
    (he : (dictAdd kvs o ks).2 = none) : Walks (.dict id (dictAdd kvs o ks).1) ks o := by
  induction ks generalizing kvs id with
  | nil => exact absurd rfl hne
  | cons k ks ih =>
    have hs := (wf_dict_iff.1 h).1
    cases ks with
    | nil => exact .step (by simp [dictAdd, smGet_smAdd kvs hs]) (.here _)
    | cons k2 ks =>
      have hl := levelAt_wf h k
      rw [dictAdd_cons2 _ hs] at he ⊢
      split
      · rename_i i sub heq
        rw [heq] at hl
        rw [heq] at he
        simp only at he
        exact .step (by simp only [smGet_smAdd kvs hs, if_true]) (ih sub i hl (by simp) he)
      · rename_i hnd
        exfalso
        revert he
        cases hlv : levelAt kvs k <;> simp_all

/-- Success: what is reachable at unrelated paths does not change. -/
theorem dictAdd_frame (kvs : SMap J) (id : Int) (h : (J.dict id kvs).WF) (o : J) (ks q : List Bytes) (w : J)
    (h1 : ¬ ks <+: q) (h2 : ¬ q <+: ks) :
    Walks (.dict id (dictAdd kvs o ks).1) q w ↔ Walks (.dict id kvs) q w := by
  induction ks generalizing kvs id q with
  | nil => exact absurd (List.nil_prefix) h1
  | cons k ks ih =>
    have hs := (wf_dict_iff.1 h).1
    cases q with
    | nil => exact absurd (List.nil_prefix) h2
    | cons l q =>
      have key : ∀ (v : J), (l = k → (Walks v q w ↔ ∃ x, smGet kvs k = some x ∧ Walks x q w)) →
          (Walks (.dict id (smAdd kvs k v)) (l :: q) w ↔ Walks (.dict id kvs) (l :: q) w) := by
        intro v hv
        by_cases hlk : l = k
        · subst hlk
          constructor
          · intro hw
            cases hw with
            | step hg hw =>
              rw [smGet_smAdd kvs hs, if_pos rfl] at hg
              cases hg
              obtain ⟨x, a, b⟩ := (hv rfl).1 hw
              exact .step a b
          · intro hw
            cases hw with
            | step hg hw =>
              exact .step (by rw [smGet_smAdd kvs hs, if_pos rfl]) ((hv rfl).2 ⟨_, hg, hw⟩)
        · constructor
          · intro hw
            cases hw with
            | step hg hw =>
              rw [smGet_smAdd kvs hs, if_neg hlk] at hg
              exact .step hg hw
          · intro hw
            cases hw with
            | step hg hw => exact .step (by rw [smGet_smAdd kvs hs, if_neg hlk]; exact hg) hw
      cases ks with
      | nil =>
        apply key o
        rintro rfl
        exact absurd ⟨q, by simp⟩ h1
      | cons k2 ks =>
        rw [dictAdd_cons2 _ hs]
        have hl := levelAt_wf h k
        split
        · rename_i i sub heq
          rw [heq] at hl
          apply key
          rintro rfl
          have h1' : ¬ (k2 :: ks) <+: q := fun h => h1 (by simpa using h)
          have h2' : ¬ q <+: (k2 :: ks) := fun h => h2 (by simpa using h)
          rw [ih sub i hl q h1' h2']
          have hq : q ≠ [] := by rintro rfl; exact h2' List.nil_prefix
          constructor
          · intro hw
            cases hg : smGet kvs l with
            | none =>
              simp only [levelAt, hg, J.dict.injEq] at heq
              obtain ⟨rfl, rfl⟩ := heq
              cases hw with
              | here => exact absurd rfl hq
              | step hg' _ => simp [smGet] at hg'
            | some v =>
              by_cases hn : v = .null
              · subst hn
                simp only [levelAt, hg, J.dict.injEq] at heq
                obtain ⟨rfl, rfl⟩ := heq
                cases hw with
                | here => exact absurd rfl hq
                | step hg' _ => simp [smGet] at hg'
              · have hlv : levelAt kvs l = v := by
                  unfold levelAt; rw [hg]; cases v <;> simp_all
                rw [hlv] at heq
                subst heq
                exact ⟨_, rfl, hw⟩
          · rintro ⟨x, hg, hw⟩
            have hx : x = .dict i sub := by
              cases hw with
              | here => exact absurd rfl hq
              | step hg' _ =>
                unfold levelAt at heq; rw [hg] at heq; simpa using heq
            exact hx ▸ hw
        · exact Iff.rfl

/-- Success: the levels in between are dictionaries. -/
theorem dictAdd_levels (kvs : SMap J) (id : Int) (h : (J.dict id kvs).WF) (o : J) (p q : List Bytes) (hq : q ≠ [])
    (he : (dictAdd kvs o (p ++ q)).2 = none) :
    ∃ i m, Walks (.dict id (dictAdd kvs o (p ++ q)).1) p (.dict i m) := by
  have := dictAdd_get kvs id h o (p ++ q) (by simp [hq]) he
  obtain ⟨w, a, b⟩ := this.split
  cases b with
  | here => exact absurd rfl hq
  | step hg hw => exact ⟨_, _, a⟩

/-- Every blocking level makes `Add` fail. -/
theorem dictAdd_blocked (kvs : SMap J) (id : Int) (h : (J.dict id kvs).WF) (o : J) (p q : List Bytes) (x : J)
    (hp : p ≠ []) (hq : q ≠ []) (hw : Walks (.dict id kvs) p x) (hx : x ≠ .null) (hd : ¬ x.IsDict) :
    (dictAdd kvs o (p ++ q)).2 = some .invalidDict := by
  induction p generalizing kvs id with
  | nil => exact absurd rfl hp
  | cons k p ih =>
    have hs := (wf_dict_iff.1 h).1
    cases hw with
    | step hg hw =>
      rename_i v
      cases p with
      | nil =>
        cases hw
        cases q with
        | nil => exact absurd rfl hq
        | cons k2 q =>
          rw [List.cons_append, List.nil_append, dictAdd_cons2 _ hs]
          have hlv : levelAt kvs k = x := by
            unfold levelAt; rw [hg]; cases x <;> simp_all
          rw [hlv]
          cases x <;> simp_all [J.IsDict]
      | cons k2 p =>
        rw [List.cons_append, List.cons_append, dictAdd_cons2 _ hs]
        cases hw with
        | step hg2 hw2 =>
          simp only [levelAt, hg]
          have := ih _ _ (wf_smGet h hg) (by simp) (.step hg2 hw2)
          rw [List.cons_append] at this
          exact this

end Jsonutils
