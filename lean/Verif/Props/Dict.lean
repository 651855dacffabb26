import Verif.Proofs.Text
import Verif.Props.Parse

/-!
# Properties of dictionaries, equality, accessors and utilities: C14 – C26, C32 – C36
-/

namespace Jsonutils.Props

/-- `{"a":{"b":1,"c":null},"B":[true],"n":null}` as a dictionary. -/
def sampleDict : SMap J :=
  [(b!"B", .arr [.bool true]), (b!"a", .dict 0 [(b!"b", .int 1), (b!"c", .null)]), (b!"n", .null)]

theorem sampleDict_wf (id : Int) : (J.dict id sampleDict).WF := by
  simp only [sampleDict, J.WF, J.WFf, J.WFs, SMap.Sorted, InI64, i64min, i64max]
  refine ⟨by decide, ⟨trivial, trivial⟩, ⟨by decide, by omega, trivial, trivial⟩, trivial, trivial⟩

/-! ## C14 -/

/-- **C14.** After any sequence of `Set`, `Remove`, `RemoveIgnoreCase`, `Update`, `UpdateDefault` calls on a new
dictionary (every call returns): lookups agree with an ordinary map on which the same operations are performed, the
removals report whether an entry was removed, the keys are strictly increasing and are exactly the keys with a value,
and `Length` is their number. -/
theorem C14_dictionary_is_a_map (fold : Bytes → Bytes) (ops : List DOp) (h : ∀ op ∈ ops, op.ArgOk) :
    ∃ kvs flags, runOps fold [] ops = some (kvs, flags) ∧
      (∀ id k, (J.dict id kvs).get [k] = (match specOps fold (fun _ => none) ops k with
        | some v => .ok v
        | none => .err .keyNotFound)) ∧
      FlagsOk fold (fun _ => none) ops flags ∧
      (smKeys kvs).Pairwise (fun a b => blt a b = true) ∧
      (∀ k, k ∈ smKeys kvs ↔ (specOps fold (fun _ => none) ops k).isSome) ∧
      (∀ id, (J.dict id kvs).length? = some (smKeys kvs).length ∧ (smKeys kvs).Nodup) := by
  obtain ⟨kvs, rs, h1, h2, h3, h4⟩ := runOps_spec fold ops sorted_nil h
  have he : smGet ([] : SMap J) = fun _ => none := by funext k; rfl
  rw [he] at h3 h4
  refine ⟨kvs, rs, h1, fun id k => ?_, h4, ?_, fun k => ?_, fun id => ⟨by simp [J.length?, smKeys], sorted_keys_nodup h2⟩⟩
  · rw [get_single, h3]
    cases specOps fold (fun _ => none) ops k <;> rfl
  · unfold smKeys; rw [List.pairwise_map]; exact h2
  · rw [← smGet_isSome_iff, h3]

example : ∀ op ∈ [DOp.set b!"x" .null, .update (.dict 0 sampleDict), .removeIgnoreCase b!"b", .remove b!"q"], op.ArgOk := by
  intro op h
  simp only [List.mem_cons, List.not_mem_nil, or_false] at h
  rcases h with rfl | rfl | rfl | rfl <;> simp only [DOp.ArgOk]
  exact sampleDict_wf 0

/-! ## C15 -/

/-- **C15, success.** If `d.Add(o, path...)` succeeds: the value is found at the path, and below it as in `o`; every
level above is a dictionary; at paths unrelated to `path` the same values are found as before; the dictionary stays
well formed. -/
theorem C15_add_success (id : Int) (kvs : SMap J) (h : (J.dict id kvs).WF) (o : J) (ho : o.WF) (path : List Bytes)
    (hne : path ≠ []) (hs : (dictAdd kvs o path).2 = none) :
    let d' := J.dict id (dictAdd kvs o path).1
    d'.get path = .ok o ∧ d'.WF ∧
    (∀ q w, Walks o q w → d'.get (path ++ q) = .ok w) ∧
    (∀ p q, path = p ++ q → q ≠ [] → ∃ i m, d'.get p = .ok (.dict i m)) ∧
    (∀ q w, ¬ path <+: q → ¬ q <+: path → (d'.get q = .ok w ↔ (J.dict id kvs).get q = .ok w)) := by
  intro d'
  have h1 := dictAdd_get kvs id h o path hne hs
  refine ⟨(get_ok_iff _ _ _ _).2 h1, dictAdd_wf kvs id h o ho path, fun q w hw => (get_ok_iff _ _ _ _).2 (h1.append hw),
    fun p q hpq hq => ?_, fun q w a b => ?_⟩
  · subst hpq
    obtain ⟨i, m, hw⟩ := dictAdd_levels kvs id h o p q hq hs
    exact ⟨i, m, (get_ok_iff _ _ _ _).2 hw⟩
  · rw [get_ok_iff, get_ok_iff]
    exact dictAdd_frame kvs id h o path q w a b

/-- **C15, failure.** `Add` fails exactly if some proper prefix of the path holds a value that is neither null nor a
dictionary; then it returns `ErrInvalidJsonDict` and the dictionary is unchanged. An empty path is a no-op. -/
theorem C15_add_failure (id : Int) (kvs : SMap J) (h : (J.dict id kvs).WF) (o : J) (path : List Bytes) :
    ((dictAdd kvs o path).2 ≠ none ↔
      ∃ p q x, path = p ++ q ∧ p ≠ [] ∧ q ≠ [] ∧ (J.dict id kvs).get p = .ok x ∧ x ≠ .null ∧ ¬ x.IsDict) ∧
    ((dictAdd kvs o path).2 ≠ none → (dictAdd kvs o path).2 = some .invalidDict ∧ (dictAdd kvs o path).1 = kvs) ∧
    dictAdd kvs o [] = (kvs, none) := by
  refine ⟨⟨fun hn => ?_, ?_⟩, fun hn => ?_, rfl⟩
  · obtain ⟨e, he⟩ := Option.ne_none_iff_exists'.1 hn
    obtain ⟨_, _, p, q, x, h1, h2, h3, h4, h5, h6⟩ := dictAdd_err kvs id h o path e he
    exact ⟨p, q, x, h1, h2, h3, (get_ok_iff _ _ _ _).2 h4, h5, h6⟩
  · rintro ⟨p, q, x, rfl, h2, h3, h4, h5, h6⟩
    rw [dictAdd_blocked kvs id h o p q x h2 h3 ((get_ok_iff _ _ _ _).1 h4) h5 h6]
    simp
  · obtain ⟨e, he⟩ := Option.ne_none_iff_exists'.1 hn
    obtain ⟨h1, h2, _⟩ := dictAdd_err kvs id h o path e he
    exact ⟨by rw [he, h2], h1⟩

example : (dictAdd sampleDict (.int 5) [b!"n", b!"x", b!"y"]).2 = none ∧
    (dictAdd sampleDict (.int 5) [b!"a", b!"b", b!"y"]).2 = some .invalidDict := ⟨rfl, rfl⟩

theorem smGetFold_iff {α} (fold : Bytes → Bytes) (k : Bytes) (v : α) : ∀ m : SMap α, smGetFold fold m k = some v ↔
    ∃ before k' after, m = before ++ (k', v) :: after ∧ fold k' = fold k ∧ ∀ e ∈ before, fold e.1 ≠ fold k
  | [] => by simp [smGetFold]
  | (a, x) :: m => by
    simp only [smGetFold]
    split
    · rename_i h
      constructor
      · intro hx; cases hx; exact ⟨[], a, m, rfl, h, by simp⟩
      · rintro ⟨b, k', r, hm, hk, hb⟩
        cases b with
        | nil => cases hm; rfl
        | cons e b => cases hm; exact absurd h (hb (a, x) (List.mem_cons_self ..))
    · rename_i h
      rw [smGetFold_iff fold k v m]
      constructor
      · rintro ⟨b, k', r, hm, hk, hb⟩
        refine ⟨(a, x) :: b, k', r, by rw [hm]; rfl, hk, fun e he => ?_⟩
        rcases List.mem_cons.1 he with rfl | he
        · exact h
        · exact hb e he
      · rintro ⟨b, k', r, hm, hk, hb⟩
        cases b with
        | nil => cases hm; exact absurd hk h
        | cons e b => cases hm; exact ⟨b, k', r, rfl, hk, fun e he => hb e (List.mem_cons_of_mem _ he)⟩

/-- **C15, ignoring case.** `GetIgnoreCases(path...)` finds `w` iff walking along the path, at every step to the first entry whose
key folds to that of the path, ends at `w`; it returns an error otherwise. -/
theorem C15_ignore_case (fold : Bytes → Bytes) (id : Int) (kvs : SMap J) (path : List Bytes) :
    (∀ w, (J.dict id kvs).getIgnoreCases fold path = .ok w ↔ WalksFold fold (.dict id kvs) path w) ∧
    (J.dict id kvs).getIgnoreCases fold path ≠ .diverge := by
  have loop : ∀ (ks : List Bytes) (kvs : SMap J) (id : Int) (k : Bytes),
      (∀ w, getLoop (smGetFold fold) kvs (k :: ks) = .ok w ↔ WalksFold fold (.dict id kvs) (k :: ks) w) ∧ getLoop (smGetFold fold) kvs (k :: ks) ≠ .diverge := by
    intro ks
    induction ks with
    | nil =>
      intro kvs id k
      simp only [getLoop]
      constructor
      · intro w
        constructor
        · intro h
          split at h
          · rename_i v hv
            cases h
            obtain ⟨b, k', r, rfl, hk, hb⟩ := (smGetFold_iff fold k _ _).1 hv
            exact .step hk hb (.here _)
          · cases h
        · intro h
          cases h with
          | step hk hb hw =>
            cases hw
            rw [(smGetFold_iff fold k _ _).2 ⟨_, _, _, rfl, hk, hb⟩]
      · split <;> simp
    | cons k2 ks ih =>
      intro kvs id k
      simp only [getLoop]
      constructor
      · intro w
        constructor
        · intro h
          split at h
          · rename_i i m hv
            obtain ⟨b, k', r, rfl, hk, hb⟩ := (smGetFold_iff fold k _ _).1 hv
            exact .step hk hb (((ih m i k2).1 w).1 h)
          · cases h
          · cases h
        · intro h
          cases h with
          | step hk hb hw =>
            rw [(smGetFold_iff fold k _ _).2 ⟨_, _, _, rfl, hk, hb⟩]
            cases hw with
            | step hk' hb' hw' => exact ((ih _ 0 k2).1 w).2 (.step hk' hb' hw')
      · split
        · rename_i i m hv
          exact (ih m i k2).2
        · simp
        · simp
  cases path with
  | nil =>
    simp only [J.getIgnoreCases, dictGet]
    refine ⟨fun w => ⟨fun h => by cases h; exact .here _, fun h => by cases h; rfl⟩, by simp⟩
  | cons k ks => exact loop ks kvs id k

example : WalksFold lowerBytes (.dict 0 sampleDict) [b!"A", b!"C"] .null := by
  refine .step (before := [(b!"B", .arr [.bool true])]) (k' := b!"a") (by decide) (by decide) ?_
  exact .step (before := [(b!"b", .int 1)]) (k' := b!"c") (after := []) (by decide) (by decide) (.here _)

/-- **C15, Contains.** `Contains(path...)` iff the path leads somewhere, to null included; `ContainsIgnoreCases` likewise. -/
theorem C15_contains (fold : Bytes → Bytes) (id : Int) (kvs : SMap J) (path : List Bytes) :
    ((J.dict id kvs).contains path = true ↔ ∃ w, Walks (.dict id kvs) path w) ∧
    ((J.dict id kvs).containsIgnoreCases fold path = true ↔ ∃ w, WalksFold fold (.dict id kvs) path w) := by
  constructor
  · simp only [J.contains]
    cases h : (J.dict id kvs).get path with
    | ok w => exact ⟨fun _ => ⟨w, (get_ok_iff _ _ _ _).1 h⟩, fun _ => rfl⟩
    | _ =>
      refine ⟨fun h' => (by cases h'), fun ⟨w, hw⟩ => ?_⟩
      rw [(get_ok_iff _ _ _ _).2 hw] at h; cases h
  · simp only [J.containsIgnoreCases]
    have hiff := (C15_ignore_case fold id kvs path).1
    cases h : (J.dict id kvs).getIgnoreCases fold path with
    | ok w => exact ⟨fun _ => ⟨w, (hiff w).1 h⟩, fun _ => rfl⟩
    | _ =>
      refine ⟨fun h' => (by cases h'), fun ⟨w, hw⟩ => ?_⟩
      rw [(hiff w).2 hw] at h; cases h

example : (J.dict 0 sampleDict).contains [b!"n"] = true ∧ (J.dict 0 sampleDict).contains [b!"n", b!"x"] = false := ⟨rfl, rfl⟩

/-! ## C16 -/

/-- **C16.** `RemoveIgnoreCase(k)` terminates; it leaves exactly the entries whose key does not match, in order, and
returns true iff an entry matched. (`fold` is the case folding used by the map package.) -/
theorem C16_remove_ignore_case (fold : Bytes → Bytes) (kvs : SMap J) (k : Bytes) :
    ∃ kvs' removed, dictRemoveFold fold (kvs.length + 1) kvs k false = some (kvs', removed) ∧
      kvs'.Sublist kvs ∧ (∀ e, e ∈ kvs' ↔ e ∈ kvs ∧ fold e.1 ≠ fold k) ∧
      (removed = true ↔ ∃ e ∈ kvs, fold e.1 = fold k) := by
  refine ⟨_, _, dictRemoveFold_spec fold _ kvs k false (by omega), List.filter_sublist, fun e => ?_, ?_⟩
  · simp
  · simp

example : ∃ b, dictRemoveFold lowerBytes 4 sampleDict b!"A" false = some ([(b!"B", .arr [.bool true]), (b!"n", .null)], b) :=
  ⟨true, rfl⟩

/-! ## C17 -/

/-- **C17.** `Update` is the right-biased and `UpdateDefault` the left-biased merge; both keep the dictionary well
formed, both are idempotent, and an argument that is not a dictionary changes nothing. -/
theorem C17_update (id : Int) (kvs : SMap J) (h : (J.dict id kvs).WF) (o : J) (ho : o.WF) :
    (∀ k, smGet (dictUpdate kvs o) k = if (o.asMap k).isSome then o.asMap k else smGet kvs k) ∧
    (∀ k, smGet (dictUpdateDefault kvs o) k = if (smGet kvs k).isSome then smGet kvs k else o.asMap k) ∧
    (J.dict id (dictUpdate kvs o)).WF ∧ (J.dict id (dictUpdateDefault kvs o)).WF ∧
    dictUpdate (dictUpdate kvs o) o = dictUpdate kvs o ∧
    dictUpdateDefault (dictUpdateDefault kvs o) o = dictUpdateDefault kvs o ∧
    (¬ o.IsDict → dictUpdate kvs o = kvs ∧ dictUpdateDefault kvs o = kvs) := by
  have hs := WF_dict_sorted h
  have wf : ∀ m : SMap J, SMap.Sorted m → (∀ k v, smGet m k = some v → smGet kvs k = some v ∨ o.asMap k = some v) →
      (J.dict id m).WF := by
    intro m hm hv
    rw [wf_dict_iff]
    refine ⟨hm, fun e he => ?_⟩
    rcases hv e.1 e.2 (smGet_of_mem hm he) with h' | h'
    · exact wf_smGet h h'
    · cases o with
      | dict i m' => exact wf_smGet ho h'
      | _ => simp [J.asMap] at h'
  refine ⟨fun k => ?_, fun k => ?_, wf _ (dictUpdate_sorted hs o) fun k v hk => ?_,
    wf _ (dictUpdateDefault_sorted hs o ho) fun k v hk => ?_, ?_, ?_, ?_⟩
  · rw [smGet_dictUpdate hs o ho]; cases o.asMap k <;> simp
  · rw [smGet_dictUpdateDefault hs o ho]; cases smGet kvs k <;> simp
  · rw [smGet_dictUpdate hs o ho] at hk
    cases ha : o.asMap k <;> simp_all
  · rw [smGet_dictUpdateDefault hs o ho] at hk
    cases ha : smGet kvs k <;> simp_all
  · refine sorted_ext (dictUpdate_sorted (dictUpdate_sorted hs o) o) (dictUpdate_sorted hs o) fun k => ?_
    rw [smGet_dictUpdate (dictUpdate_sorted hs o) o ho, smGet_dictUpdate hs o ho]
    cases o.asMap k <;> simp
  · have hs' := dictUpdateDefault_sorted hs o ho
    refine sorted_ext (dictUpdateDefault_sorted hs' o ho) hs' fun k => ?_
    rw [smGet_dictUpdateDefault hs' o ho, smGet_dictUpdateDefault hs o ho]
    cases smGet kvs k <;> cases o.asMap k <;> simp
  · intro hd
    cases o <;> simp_all [J.IsDict, dictUpdate, dictUpdateDefault]

/-- `Update` is associative: updating `a` with `b` and then `c` is updating `a` with (`b` updated with `c`). -/
theorem C17_update_assoc (i j l : Int) (a b c : SMap J) (ha : (J.dict i a).WF) (hb : (J.dict j b).WF) (hc : (J.dict l c).WF) :
    dictUpdate (dictUpdate a (.dict j b)) (.dict l c) = dictUpdate a (.dict j (dictUpdate b (.dict l c))) := by
  have sa := WF_dict_sorted ha
  have sb := WF_dict_sorted hb
  have hbc := (C17_update j b hb (.dict l c) hc).2.2.1
  refine sorted_ext (dictUpdate_sorted (dictUpdate_sorted sa _) _) (dictUpdate_sorted sa _) fun k => ?_
  rw [smGet_dictUpdate (dictUpdate_sorted sa _) _ hc, smGet_dictUpdate sa _ hb, smGet_dictUpdate sa _ hbc]
  simp only [J.asMap]
  rw [smGet_dictUpdate sb _ hc, Option.or_assoc]
  rfl

example : dictUpdate [(b!"a", .int 1), (b!"b", .int 2)] (.dict 0 [(b!"b", .int 3), (b!"c", .null)]) =
    [(b!"a", .int 1), (b!"b", .int 3), (b!"c", .null)] := rfl

/-! ## C18 -/

/-- **C18.** What each part of `Diff(a, b)` contains. -/
theorem C18_diff_parts (i j : Int) (a b : SMap J) (ha : (J.dict i a).WF) (hb : (J.dict j b).WF) (k : Bytes) (v : J) :
    let d := dictDiff a b
    (smGet d.1 k = some v ↔ smGet a k = some v ∧ smGet b k = none) ∧
    (smGet d.2.1 k = some v ↔ ∃ x y, smGet a k = some x ∧ smGet b k = some y ∧ x.equals y = false ∧ v = .arr [x, y]) ∧
    (smGet d.2.2.1 k = some v ↔ smGet a k = some v ∧ ∃ y, smGet b k = some y ∧ v.equals y = true) ∧
    (smGet d.2.2.2 k = some v ↔ smGet b k = some v ∧ smGet a k = none) ∧
    SMap.Sorted d.1 ∧ SMap.Sorted d.2.1 ∧ SMap.Sorted d.2.2.1 ∧ SMap.Sorted d.2.2.2 := by
  have sa := WF_dict_sorted ha
  have sb := WF_dict_sorted hb
  intro d
  have g1 : ∀ k, smGet (smSplit a b).2.1 k = if (smGet b k).isSome then smGet a k else none := fun k =>
    smGet_filter_key a (fun k => (smGet b k).isSome) k
  have g2 : ∀ k, smGet (smSplit a b).2.2.1 k = if (smGet a k).isSome then smGet b k else none := fun k =>
    smGet_filter_key b (fun k => (smGet a k).isSome) k
  obtain ⟨l1, l2, l3, l4⟩ := diffLoop_spec (smSplit a b).2.2.1 (smSplit a b).2.1 [] [] (sorted_filter sa _) sorted_nil sorted_nil k
  rw [g1, g2] at l3 l4
  refine ⟨?_, ?_, ?_, ?_, sorted_filter sa _, l1, l2, sorted_filter sb _⟩
  · show smGet (a.filter fun kv => (smGet b kv.1).isNone) k = some v ↔ _
    rw [smGet_filter_key a (fun k => (smGet b k).isNone) k]
    cases smGet b k <;> simp
  · show smGet (diffLoop _ _ [] []).1 k = some v ↔ _
    rw [l3]
    cases hx : smGet a k <;> cases hy : smGet b k <;> simp [smGet]
    rename_i x y
    cases x.equals y <;> simp [eq_comm]
  · show smGet (diffLoop _ _ [] []).2 k = some v ↔ _
    rw [l4]
    cases hx : smGet a k <;> cases hy : smGet b k <;> simp [smGet]
    rename_i x y
    by_cases hv : x = v
    · subst hv; cases x.equals y <;> simp
    · cases x.equals y <;> simp [hv]
  · show smGet (b.filter fun kv => (smGet a kv.1).isNone) k = some v ↔ _
    rw [smGet_filter_key b (fun k => (smGet a k).isNone) k]
    cases smGet a k <;> simp

/-- The four parts determine `a` exactly, and `b` up to `Equals`. -/
theorem C18_diff_determines (i : Int) (a b a' b' : SMap J) (ha : (J.dict i a).WF) (hb : (J.dict i b).WF)
    (ha' : (J.dict i a').WF) (hb' : (J.dict i b').WF) (h : dictDiff a b = dictDiff a' b') :
    a = a' ∧ (∀ k, (smGet b k).isSome = (smGet b' k).isSome) ∧
    ∀ k y y', smGet b k = some y → smGet b' k = some y' →
      y = y' ∨ ∃ x, smGet a k = some x ∧ x.equals y = true ∧ x.equals y' = true := by
  have P := fun k v => C18_diff_parts i i a b ha hb k v
  have P' := fun k v => C18_diff_parts i i a' b' ha' hb' k v
  -- membership of each side in terms of the parts
  have sides : ∀ (a b : SMap J) (ha : (J.dict i a).WF) (hb : (J.dict i b).WF) (k : Bytes) (x : J), smGet a k = some x ↔
      smGet (dictDiff a b).1 k = some x ∨ smGet (dictDiff a b).2.2.1 k = some x ∨
        ∃ y, smGet (dictDiff a b).2.1 k = some (.arr [x, y]) := by
    intro a b ha hb k x
    obtain ⟨p1, _, p3, _⟩ := C18_diff_parts i i a b ha hb k x
    have p2 := fun v => (C18_diff_parts i i a b ha hb k v).2.1
    constructor
    · intro hx
      cases hy : smGet b k with
      | none => exact Or.inl (p1.2 ⟨hx, hy⟩)
      | some y =>
        cases he : x.equals y with
        | true => exact Or.inr (Or.inl (p3.2 ⟨hx, y, hy, he⟩))
        | false => exact Or.inr (Or.inr ⟨y, (p2 _).2 ⟨x, y, hx, hy, he, rfl⟩⟩)
    · rintro (h | h | ⟨y, h⟩)
      · exact (p1.1 h).1
      · exact (p3.1 h).1
      · obtain ⟨x', y', h1, _, _, h4⟩ := (p2 _).1 h
        simp only [J.arr.injEq, List.cons.injEq, and_true] at h4
        rw [h1, h4.1]
  have haa : a = a' := by
    refine sorted_ext (WF_dict_sorted ha) (WF_dict_sorted ha') fun k => Option.ext fun x => ?_
    rw [sides a b ha hb, sides a' b' ha' hb', h]
  have yes : ∀ (b b' : SMap J) (hb : (J.dict i b).WF) (hb' : (J.dict i b').WF), dictDiff a b = dictDiff a b' →
      ∀ k y, smGet b k = some y → ∃ y', smGet b' k = some y' ∧
        (y = y' ∨ ∃ x, smGet a k = some x ∧ x.equals y = true ∧ x.equals y' = true) := by
    intro b b' hb hb' h k y hy
    have Q := fun v => C18_diff_parts i i a b ha hb k v
    have Q' := fun v => C18_diff_parts i i a b' ha hb' k v
    cases hx : smGet a k with
    | none =>
      have := (Q y).2.2.2.1.2 ⟨hy, hx⟩
      rw [h] at this
      exact ⟨y, ((Q' y).2.2.2.1.1 this).1, Or.inl rfl⟩
    | some x =>
      cases he : x.equals y with
      | true =>
        have := (Q x).2.2.1.2 ⟨hx, y, hy, he⟩
        rw [h] at this
        obtain ⟨_, y', h1, h2⟩ := (Q' x).2.2.1.1 this
        exact ⟨y', h1, Or.inr ⟨x, rfl, he, h2⟩⟩
      | false =>
        have := (Q (.arr [x, y])).2.1.2 ⟨x, y, hx, hy, he, rfl⟩
        rw [h] at this
        obtain ⟨x', y', h1, h2, h3, h4⟩ := (Q' _).2.1.1 this
        simp only [J.arr.injEq, List.cons.injEq, and_true] at h4
        exact ⟨y', h2, Or.inl h4.2⟩
  subst haa
  refine ⟨rfl, fun k => ?_, fun k y y' hy hy' => ?_⟩
  · rw [Bool.eq_iff_iff]
    constructor
    · intro hk
      obtain ⟨y, hy⟩ := Option.isSome_iff_exists.1 hk
      obtain ⟨y', h1, _⟩ := yes b b' hb hb' h k y hy
      rw [h1]; rfl
    · intro hk
      obtain ⟨y, hy⟩ := Option.isSome_iff_exists.1 hk
      obtain ⟨y', h1, _⟩ := yes b' b hb' hb h.symm k y hy
      rw [h1]; rfl
  · obtain ⟨y'', h1, h2⟩ := yes b b' hb hb' h k y hy
    rw [hy'] at h1
    cases h1
    exact h2

example : dictDiff [(b!"a", .int 1), (b!"b", .int 2), (b!"c", .int 3)] [(b!"b", .int 2), (b!"c", .null), (b!"d", .null)] =
    ([(b!"a", .int 1)], [(b!"c", .arr [.int 3, .null])], [(b!"b", .int 2)], [(b!"d", .null)]) := rfl

/-! ## C19 -/

/-- **C19.** `CopyIncludes` keeps exactly the listed keys, `CopyExcludes` exactly the others, values unchanged, and
updating one with the other gives back the dictionary. -/
theorem C19_copies (id : Int) (kvs : SMap J) (h : (J.dict id kvs).WF) (ks : List Bytes) :
    (∀ k, smGet (copyIncludes kvs ks) k = if k ∈ ks then smGet kvs k else none) ∧
    (∀ k, smGet (copyExcludes kvs ks) k = if k ∈ ks then none else smGet kvs k) ∧
    SMap.Sorted (copyIncludes kvs ks) ∧ SMap.Sorted (copyExcludes kvs ks) ∧
    (∀ i, dictUpdate (copyIncludes kvs ks) (.dict i (copyExcludes kvs ks)) = kvs) := by
  have hs := WF_dict_sorted h
  have g1 : ∀ k, smGet (copyIncludes kvs ks) k = if k ∈ ks then smGet kvs k else none := fun k => by
    rw [copyIncludes_eq hs, smGet_filter_key kvs (fun x => ks.contains x)]; simp
  have g2 : ∀ k, smGet (copyExcludes kvs ks) k = if k ∈ ks then none else smGet kvs k := fun k => by
    rw [copyExcludes_eq hs, smGet_filter_key kvs (fun x => !ks.contains x)]
    by_cases hk : k ∈ ks <;> simp [hk]
  have s1 : SMap.Sorted (copyIncludes kvs ks) := by rw [copyIncludes_eq hs]; exact sorted_filter hs _
  have s2 : SMap.Sorted (copyExcludes kvs ks) := by rw [copyExcludes_eq hs]; exact sorted_filter hs _
  refine ⟨g1, g2, s1, s2, fun i => ?_⟩
  refine sorted_ext (sorted_smMerge s1 _) hs fun k => ?_
  show smGet (smMerge _ _) k = _
  rw [smGet_smMerge s1 s2, g1, g2]
  by_cases hk : k ∈ ks <;> simp [hk]

example : copyIncludes sampleDict [b!"n", b!"zz"] = [(b!"n", .null)] ∧
    (copyExcludes sampleDict [b!"n", b!"zz"]).length = 2 := ⟨rfl, rfl⟩

/-! ## C20 -/

/-- **C20.** On documents without pointers `Equals` is structural equality (arrays elementwise, dictionaries keywise,
floats by `==`). -/
theorem C20_equals_structural (v w : J) (hv : v.WF) (hw : w.WF) (hp : v.NoPtr) : v.equals w = true ↔ Alike v w :=
  equals_iff_alike v w hv hw hp

/-- It is an equivalence relation on documents without pointers and NaN. -/
theorem C20_equals_equivalence :
    (∀ v : J, v.WF → v.NoPtr → v.NoNaN → v.equals v = true) ∧
    (∀ v w : J, v.WF → w.WF → v.NoPtr → w.NoPtr → v.equals w = w.equals v) ∧
    (∀ v w u : J, v.WF → w.WF → u.WF → v.NoPtr → w.NoPtr → v.equals w = true → w.equals u = true → v.equals u = true) := by
  refine ⟨fun v h1 h2 h3 => (equals_iff_alike v v h1 h1 h2).2 (Alike.refl v h2 h3), fun v w h1 h2 h3 h4 => ?_,
    fun v w u h1 h2 h3 h4 h5 a b => ?_⟩
  · rw [Bool.eq_iff_iff, equals_iff_alike v w h1 h2 h3, equals_iff_alike w v h2 h1 h4]
    exact ⟨Alike.symm, Alike.symm⟩
  · exact (equals_iff_alike v u h1 h3 h4).2
      (((equals_iff_alike v w h1 h2 h4).1 a).trans ((equals_iff_alike w u h2 h3 h5).1 b))

example : sample.WF ∧ sample.NoPtr ∧ sample.NoNaN := by
  refine ⟨sample_wf, ?_, ?_⟩
  · simp only [sample, J.NoPtr, J.NoPtrf, J.NoPtrs, and_self]
  · simp [sample, J.NoNaN, J.FloatsSat, J.FloatsSatf, J.FloatsSats]

/-- Findings: a NaN and a reference pointer are not equal to themselves; a pointer equals null but not conversely. -/
theorem C20_not_reflexive : (J.float .nan 64).equals (.float .nan 64) = false ∧ (J.ptr 1).equals (.ptr 1) = false ∧
    (J.ptr 1).equals .null = true ∧ J.null.equals (.ptr 1) = false := ⟨rfl, rfl, rfl, rfl⟩

/-! ## C21 -/

/-- **C21.** Documents without floats are `Equals` iff their texts are identical. -/
theorem C21_equals_iff_text (v w : J) (hv : v.WF) (hw : w.WF) (hpv : v.Plain) (hpw : w.Plain) (hfv : v.NoFloat)
    (hfw : w.NoFloat) : v.equals w = true ↔ v.toBytes = w.toBytes := by
  rw [equals_iff_alike v w hv hw (plain_noPtr v hpv)]
  constructor
  · intro h; rw [alike_noFloat h hv hw hpv hpw hfv]
  · intro h
    have := (C09_injective v w hv hw hpv hpw h).2.2 hfv hfw
    subst this
    exact Alike.refl v (plain_noPtr v hpv) (floatsSat_mono (fun _ _ h => h.elim) v hfv)

/-- With floats both directions fail: -0.0 equals 0.0 but prints "-0"; the float 1.0 prints like the integer 1 but is
not `Equals` to it. -/
theorem C21_floats_differ :
    (J.float (.fin true 0 0) 64).equals (.float (.fin false 0 0) 64) = true ∧
    (J.float (.fin true 0 0) 64).toBytes ≠ (J.float (.fin false 0 0) 64).toBytes ∧
    (J.float (.fin false (2 ^ 52) 1022) 64).equals (.int 1) = false ∧
    (J.float (.fin false (2 ^ 52) 1022) 64).toBytes = (J.int 1).toBytes := by
  have e1 : formatFloat (.fin true 0 0) 64 = [45, 48] := by decide +kernel
  have e2 : formatFloat (.fin false 0 0) 64 = [48] := by decide +kernel
  have e3 : formatFloat (.fin false (2 ^ 52) 1022) 64 = [49] := by decide +kernel
  have hb : floatBits 64 = 64 := rfl
  refine ⟨rfl, ?_, rfl, ?_⟩
  · rw [J.toBytes, J.toBytes, hb, e1, e2]; decide
  · have : (J.float (.fin false (2 ^ 52) 1022) 64).toBytes = [49] := by rw [J.toBytes, hb, e3]
    rw [this]; rfl

/-! ## C22, value part (isolation is in `Props/Heap`) -/

/-- **C22 (values).** Whatever the iteration order of Go maps, `DeepCopy` of a document without pointers returns the
document without its node ids; it is `Equals` to the original (no NaN) and, if there are no node ids, has the same
text. -/
theorem C22_deepcopy_value (ord : List (Bytes × J) → List (Bytes × J)) (hord : ∀ l, (ord l).Perm l) (v : J) (hw : v.WF)
    (hp : v.NoPtr) : v.deepCopy ord = some v.dropIds ∧ (v.NoNaN → v.equals v.dropIds = true) ∧
      (v.NoIds → v.dropIds = v) :=
  ⟨deepCopy_eq ord hord v hw hp,
   fun hn => (equals_iff_alike v _ hw (dropIds_wf v hw) hp).2 (alike_dropIds v hp hn), dropIds_eq v⟩

/-- Finding: a reference pointer is copied to nil, a node id is dropped. -/
theorem C22_deepcopy_loses : (J.ptr 3).deepCopy id = none ∧
    (J.dict 7 [(b!"a", .null)]).deepCopy id = some (.dict 0 [(b!"a", .null)]) := ⟨rfl, rfl⟩

/-! ## C23 -/

/-- **C23.** `GetAt(i)` on an array of length `n`: element `i` for `0 ≤ i < n`, element `n+i` for `-n ≤ i < 0`, the
out-of-range error otherwise; with keys always an error. -/
theorem C23_array_index (xs : List J) (i : Int) :
    (∀ (h : 0 ≤ i ∧ i < xs.length), (J.arr xs).getAt i [] = .ok (xs[i.toNat]'(by omega))) ∧
    (∀ (h : -(xs.length : Int) ≤ i ∧ i < 0), (J.arr xs).getAt i [] = .ok (xs[(xs.length + i).toNat]'(by omega))) ∧
    (i < -(xs.length : Int) ∨ (xs.length : Int) ≤ i → (J.arr xs).getAt i [] = .err .outOfIndexRange) ∧
    (∀ k ks, (J.arr xs).getAt i (k :: ks) = .err .outOfKeyRange) := by
  refine ⟨fun h => ?_, fun h => ?_, fun h => ?_, fun k ks => rfl⟩
  · have e : (if i < 0 then (xs.length : Int) + i else i) = i := if_neg (by omega)
    simp only [J.getAt, arrGetAt, e]
    rw [if_pos h, List.getElem?_eq_getElem (by omega)]
  · have e : (if i < 0 then (xs.length : Int) + i else i) = xs.length + i := if_pos h.2
    simp only [J.getAt, arrGetAt, e]
    rw [if_pos ⟨by omega, by omega⟩, List.getElem?_eq_getElem (by omega)]
  · simp only [J.getAt, arrGetAt]
    rcases h with h | h
    · have e : (if i < 0 then (xs.length : Int) + i else i) = xs.length + i := if_pos (by omega)
      rw [e, if_neg (by omega)]
    · have e : (if i < 0 then (xs.length : Int) + i else i) = i := if_neg (by omega)
      rw [e, if_neg (by omega)]

example : (J.arr [.null, .int 5]).getAt (-1) [] = .ok (.int 5) := rfl

/-! ## C24 -/

/-- The range of the integers of the properties below. -/
theorem C24_range (n : Int) : InI64 n ↔ -2 ^ 63 ≤ n ∧ n < 2 ^ 63 := by
  unfold InI64 i64min i64max; omega

/-- **C24.** Integer texts: `GetString` of an integer is its canonical decimal text, which reads back as the integer;
`Int()` of a string succeeds exactly on `[+-]?[0-9]+` texts whose value fits int64, and returns that value. -/
theorem C24_integer_text (f : Nat) :
    (∀ n, InI64 n → ∃ s, (newInt n).getString [] = .ok s ∧ CanonicalDecimal s ∧ (newString s).int? (f + 1) [] = .ok n) ∧
    (∀ s n, (newString s).int? (f + 1) [] = .ok n ↔ DecimalText s n ∧ InI64 n) ∧
    (∀ s e, (newString s).int? (f + 1) [] = .err e → e = .invalidInt) := by
  have key : ∀ s, (newString s).int? (f + 1) [] = intOfText s := fun s => by
    simp only [J.int?, newString, J.scalarAcc]
  refine ⟨fun n hn => ⟨intDec n, ?_, intDec_canonical n, ?_⟩, fun s n => ?_, fun s e => ?_⟩
  · simp only [newInt, J.getString, J.string0, J.toBytes]
  · rw [key]; simp only [intOfText, parseInt_intDec n hn]
  · rw [key, ← parseInt_iff]
    unfold intOfText
    cases parseInt s <;> simp
  · rw [key]
    unfold intOfText
    cases parseInt s <;> simp
    exact fun h => h.symm

example : DecimalText b!"-042" (-42) ∧ InI64 (-42) := by
  refine ⟨DecimalText.minus (ds := b!"042") (by simp) (by decide), by decide⟩

/-! ## C25 -/

/-- **C25.** `Bool()` of a string: true exactly on case variants of true/on/yes and on "1", false exactly on case
variants of false/off/no and on "0", `ErrInvalidJsonBoolean` otherwise. Case variants are those of Unicode folding:
besides A–Z they include U+017F for s (and U+212A for k, which does not occur). -/
theorem C25_boolean_text (f : Nat) (s : Bytes) :
    ((newString s).bool? (f + 1) [] = .ok true ↔ lowerBytes (asciiFold s) ∈ [b!"true", b!"on", b!"yes"] ∨ s = b!"1") ∧
    ((newString s).bool? (f + 1) [] = .ok false ↔ lowerBytes (asciiFold s) ∈ [b!"false", b!"off", b!"no"] ∨ s = b!"0") ∧
    (∀ e, (newString s).bool? (f + 1) [] = .err e → e = .invalidBool) ∧
    (newString s).bool? (f + 1) [] ≠ .diverge ∧
    ((∀ c ∈ s, c < 128) → asciiFold s = s) := by
  have key : (newString s).bool? (f + 1) [] = boolOfText s := by
    simp only [J.bool?, newString, J.scalarAcc]
  rw [key]
  have w : ∀ w s, (∀ c ∈ w, 97 ≤ c ∧ c ≤ 122) → foldsTo w s = decide (lowerBytes (asciiFold s) = w) := fun w s hw => by
    rw [Bool.eq_iff_iff, foldsTo_iff w s hw]; simp
  have hT : (foldsTo b!"true" s || foldsTo b!"on" s || foldsTo b!"yes" s || s == b!"1") = true ↔
      lowerBytes (asciiFold s) ∈ [b!"true", b!"on", b!"yes"] ∨ s = b!"1" := by
    rw [w _ _ (by decide), w _ _ (by decide), w _ _ (by decide)]
    simp only [Bool.or_eq_true, decide_eq_true_eq, beq_iff_eq, List.mem_cons, List.not_mem_nil, or_false, or_assoc]
  have hF : (foldsTo b!"false" s || foldsTo b!"off" s || foldsTo b!"no" s || s == b!"0") = true ↔
      lowerBytes (asciiFold s) ∈ [b!"false", b!"off", b!"no"] ∨ s = b!"0" := by
    rw [w _ _ (by decide), w _ _ (by decide), w _ _ (by decide)]
    simp only [Bool.or_eq_true, decide_eq_true_eq, beq_iff_eq, List.mem_cons, List.not_mem_nil, or_false, or_assoc]
  have disj : ¬ ((lowerBytes (asciiFold s) ∈ [b!"true", b!"on", b!"yes"] ∨ s = b!"1") ∧
      (lowerBytes (asciiFold s) ∈ [b!"false", b!"off", b!"no"] ∨ s = b!"0")) := by
    rintro ⟨h1 | rfl, h2 | h2⟩
    · simp only [List.mem_cons, List.not_mem_nil, or_false] at h1 h2
      rcases h1 with h | h | h <;> rw [h] at h2 <;> revert h2 <;> decide
    · subst h2; revert h1; decide
    · revert h2; decide
    · revert h2; decide
  unfold boolOfText
  rw [← hT, ← hF] at disj ⊢
  refine ⟨?_, ?_, ?_, ?_, ?_⟩
  · split
    · simp_all
    · split <;> simp_all
  · split
    · simp_all
    · split <;> simp_all
  · intro e
    split
    · simp
    · split
      · simp
      · simp; exact fun h => h.symm
  · split
    · simp
    · split <;> simp
  · intro h
    clear key hT hF disj w
    induction s with
    | nil => rfl
    | cons c r ih => rw [asciiFold_ascii c r (h c (by simp)), ih fun d hd => h d (by simp [hd])]

/-- Finding: "yeſ" (U+017F) is true. -/
theorem C25_long_s : (newString [121, 101, 0xC5, 0xBF]).bool? 1 [] = .ok true := rfl

/-! ## C26 -/

/-- **C26, Get.** `Get(path...)` on a dictionary returns the value reached by descending through dictionaries, or
`ErrJsonDictKeyNotFound` if a key on the way is missing, or `ErrInvalidJsonDict` if the descent meets a value that is
not a dictionary before the end of the path. -/
theorem C26_get (id : Int) (kvs : SMap J) (path : List Bytes) :
    (∀ w, (J.dict id kvs).get path = .ok w ↔ Walks (.dict id kvs) path w) ∧
    ((∃ w, (J.dict id kvs).get path = .ok w) ∨
     ((J.dict id kvs).get path = .err .keyNotFound ∧
        ∃ p k q i m, path = p ++ k :: q ∧ Walks (.dict id kvs) p (.dict i m) ∧ smGet m k = none) ∨
     ((J.dict id kvs).get path = .err .invalidDict ∧
        ∃ p k q o, path = p ++ k :: q ∧ p ≠ [] ∧ Walks (.dict id kvs) p o ∧ ¬ o.IsDict)) := by
  refine ⟨get_ok_iff id kvs path, ?_⟩
  cases path with
  | nil => exact Or.inl ⟨_, rfl⟩
  | cons k ks =>
    cases hg : (J.dict id kvs).get (k :: ks) with
    | ok w => exact Or.inl ⟨w, rfl⟩
    | diverge => exact absurd hg (getLoop_ne_diverge kvs (k :: ks))
    | err e =>
      rcases getLoop_err kvs id (k :: ks) (by simp) e hg with ⟨rfl, h⟩ | ⟨rfl, h⟩
      · exact Or.inr (Or.inl ⟨rfl, h⟩)
      · exact Or.inr (Or.inr ⟨rfl, h⟩)

/-- `r` followed by `g` on success. -/
def Res.andThen {α β} (r : Res α) (g : α → Res β) : Res β :=
  match r with
  | .ok a => g a
  | .err e => .err e
  | .diverge => .diverge

/-- **C26, accessors.** Every typed accessor with a path is `Get(path...)` followed by the accessor without keys
(`GetMap` and `GetAt` reject a wrong kind with their own error). For `Int`, `Float`, `Bool` the equation holds at every
recursion depth `f`. -/
theorem C26_accessors (id : Int) (kvs : SMap J) (path : List Bytes) (f : Nat) (i : Int) :
    let d := J.dict id kvs
    d.getString path = Res.andThen (d.get path) (fun o => o.getString []) ∧
    d.int? (f + 1) path = Res.andThen (d.get path) (fun o => o.int? f []) ∧
    d.float? (f + 1) path = Res.andThen (d.get path) (fun o => o.float? f []) ∧
    d.bool? (f + 1) path = Res.andThen (d.get path) (fun o => o.bool? f []) ∧
    d.getArray path = Res.andThen (d.get path) (fun o => o.getArray []) ∧
    d.getMap path = Res.andThen (d.get path) (fun o => if o.IsDict' then o.getMap [] else .err .invalidDict) ∧
    d.getAt i path = Res.andThen (d.get path) (fun o => if o.IsArr' then o.getAt i [] else .err .invalidArray) := by
  intro d
  have hd : d.get path = dictGet smGet id kvs path := rfl
  refine ⟨?_, ?_, ?_, ?_, ?_, ?_, ?_⟩
  · cases path with
    | nil => rfl
    | cons k ks =>
      simp only [d, J.getString, J.get]
      cases dictGet smGet id kvs (k :: ks) with
      | ok o => cases o <;> rfl
      | err e => rfl
      | diverge => rfl
  · simp only [d, J.int?, J.scalarAcc, J.get]
    cases dictGet smGet id kvs path <;> rfl
  · simp only [d, J.float?, J.scalarAcc, J.get]
    cases dictGet smGet id kvs path <;> rfl
  · simp only [d, J.bool?, J.scalarAcc, J.get]
    cases dictGet smGet id kvs path <;> rfl
  · simp only [d, J.getArray, J.get]
    cases dictGet smGet id kvs path with
    | ok o => cases o <;> rfl
    | err e => rfl
    | diverge => rfl
  · simp only [d, J.getMap, J.get]
    cases dictGet smGet id kvs path with
    | ok o => cases o <;> rfl
    | err e => rfl
    | diverge => rfl
  · simp only [d, J.getAt, J.get]
    cases dictGet smGet id kvs path with
    | ok o => cases o <;> rfl
    | err e => rfl
    | diverge => rfl

/-- On scalars the accessors return at once: `Int`/`Float`/`Bool` of the value itself need no recursion. -/
theorem C26_scalars (f : Nat) (v : J) (h : ¬ v.IsDict) :
    v.int? (f + 1) [] = v.int? 1 [] ∧ v.float? (f + 1) [] = v.float? 1 [] ∧ v.bool? (f + 1) [] = v.bool? 1 [] ∧
    v.int? (f + 1) [] ≠ .diverge ∧ v.float? (f + 1) [] ≠ .diverge ∧ v.bool? (f + 1) [] ≠ .diverge := by
  cases v with
  | dict i m => exact absurd trivial h
  | str s =>
    simp only [J.int?, J.float?, J.bool?, J.scalarAcc, intOfText, floatOfText, boolOfText, true_and]
    refine ⟨?_, ?_, ?_⟩
    · cases parseInt s <;> simp
    · cases parseFloat s <;> simp
    · split
      · simp
      · split <;> simp
  | _ => simp [J.int?, J.float?, J.bool?, J.scalarAcc]

/-- Finding: if the path leads to a dictionary (in particular, with no keys), `Int`, `Float` and `Bool` never return:
no recursion depth suffices. -/
theorem C26_diverges (id : Int) (kvs : SMap J) (path : List Bytes) (i : Int) (m : SMap J)
    (h : (J.dict id kvs).get path = .ok (.dict i m)) (f : Nat) :
    (J.dict id kvs).int? f path = .diverge ∧ (J.dict id kvs).float? f path = .diverge ∧
    (J.dict id kvs).bool? f path = .diverge := by
  have self : ∀ {α} (own : J → Option (Res α)) (f : Nat) (i : Int) (m : SMap J), J.scalarAcc own f (.dict i m) [] = .diverge := by
    intro α own f
    induction f with
    | zero => intros; rfl
    | succ f ih => intro i m; simp only [J.scalarAcc, dictGet]; exact ih i m
  cases f with
  | zero => exact ⟨rfl, rfl, rfl⟩
  | succ f =>
    obtain ⟨_, a, b, c, _⟩ := C26_accessors id kvs path f 0
    rw [a, b, c, h]
    exact ⟨self _ f i m, self _ f i m, self _ f i m⟩

example : (J.dict 0 sampleDict).get [b!"a", b!"b"] = .ok (.int 1) ∧
    (J.dict 0 sampleDict).get [b!"a"] = .ok (.dict 0 [(b!"b", .int 1), (b!"c", .null)]) := ⟨rfl, rfl⟩

/-! ## C32 -/

/-- **C32.** `Interface()` is faithful at every depth: at each path of keys and indices the plain Go value has exactly
the counterpart of the subdocument there; scalars become their value. -/
theorem C32_interface (v : J) (p : List Sel) :
    v.interface.at p = (v.at p).map J.interface ∧ (∀ s, v.scalarIface = some s → v.interface = s) ∧
    (∀ xs, v = .arr xs → ∃ ys, v.interface = .slice ys ∧ ys.length = xs.length) ∧
    (∀ i kvs, v = .dict i kvs → ∃ m, v.interface = .map m ∧ smKeys m = smKeys kvs) := by
  refine ⟨interface_at p v, fun s h => ?_, fun xs h => ?_, fun i kvs h => ?_⟩
  · cases v <;> simp [J.scalarIface] at h <;> subst h <;> rfl
  · subst h; exact ⟨_, rfl, by rw [interfaces_map]; simp⟩
  · subst h; exact ⟨_, rfl, by rw [interfacef_map]; simp [smKeys]⟩

/-- Documents with the same `Interface()` value are `Equals`. -/
theorem C32_interface_injective (v w : J) (hv : v.WF) (hw : w.WF) (hpv : v.NoPtr) (hpw : w.NoPtr) (hn : v.NoNaN)
    (h : v.interface = w.interface) : v.equals w = true :=
  (equals_iff_alike v w hv hw hpv).2 (interface_inj v w hpv hpw hn h)

example : (J.dict 0 sampleDict).interface.at [.key b!"B", .idx 0] = some (.bool true) := rfl

/-! ## C33 -/

/-- **C33.** `IsZero` is true exactly for null, false, 0, ±0.0, the empty string, array and dictionary (and for an
unresolved reference pointer). -/
theorem C33_is_zero (v : J) : v.isZero = true ↔
    v = .null ∨ v = .bool false ∨ v = .int 0 ∨ (∃ neg e bit, v = .float (.fin neg 0 e) bit) ∨ v = .str [] ∨ v = .arr [] ∨
    (∃ id, v = .dict id []) ∨ (∃ id, v = .ptr id) := by
  cases v with
  | float x b =>
    cases x <;> simp [J.isZero, GoFloat.feq]
    exact fun _ h _ => h
  | _ => simp [J.isZero]

/-- `Length` counts bytes, elements and entries; `SetAt` keeps it, `Add` on an array adds the number of new elements. -/
theorem C33_length (xs objs : List J) (i : Int) (o : J) :
    (J.arr (arrAdd xs objs)).length? = some (xs.length + objs.length) ∧
    (∀ ys, arrSetAt xs i o = some ys → (J.arr ys).length? = (J.arr xs).length? ∧ (J.arr ys).getAt i [] = .ok o ∧
      ∀ j, 0 ≤ j → j ≠ i → (J.arr ys).getAt j [] = (J.arr xs).getAt j []) ∧
    (arrSetAt xs i o = none ↔ i < 0 ∨ (xs.length : Int) ≤ i) := by
  refine ⟨by simp [arrAdd, J.length?], fun ys h => ?_, ?_⟩
  · unfold arrSetAt at h
    split at h
    · rename_i hi
      have := Option.some.inj h
      subst this
      refine ⟨by simp [J.length?], ?_, fun j hj0 hj => ?_⟩
      · have e : (if i < 0 then ((xs.set i.toNat o).length : Int) + i else i) = i := if_neg (by omega)
        simp only [J.getAt, arrGetAt, e]
        rw [if_pos (by simpa using hi), List.getElem?_set]
        have : i.toNat < xs.length := by omega
        simp [this]
      · have e : (if j < 0 then (xs.length : Int) + j else j) = j := if_neg (by omega)
        simp only [J.getAt, arrGetAt, List.length_set, e]
        have : i.toNat ≠ j.toNat := by omega
        simp only [List.getElem?_set, this, if_false]
    · simp at h
  · unfold arrSetAt
    split
    · simp; omega
    · simp; omega

/-! ## C34 -/

/-- **C34.** `CheckRequiredFields` returns nil iff every field is present and not null; otherwise it names the first
offending field and says whether it is missing or null. -/
theorem C34_required_fields (id : Int) (kvs : SMap J) (fields : List Bytes) :
    (checkRequiredFields (.dict id kvs) fields = .ok ↔ ∀ f ∈ fields, ∃ v, smGet kvs f = some v ∧ v ≠ .null) ∧
    (∀ f, checkRequiredFields (.dict id kvs) fields = .missing f ↔
      ∃ p q, fields = p ++ f :: q ∧ (∀ g ∈ p, ∃ v, smGet kvs g = some v ∧ v ≠ .null) ∧ smGet kvs f = none) ∧
    (∀ f, checkRequiredFields (.dict id kvs) fields = .isNil f ↔
      ∃ p q, fields = p ++ f :: q ∧ (∀ g ∈ p, ∃ v, smGet kvs g = some v ∧ v ≠ .null) ∧ smGet kvs f = some .null) := by
  have e : checkRequiredFields (.dict id kvs) fields = checkFields kvs fields := rfl
  rw [e]
  clear e
  induction fields with
  | nil => simp [checkFields]
  | cons g fs ih =>
    obtain ⟨h1, h2, h3⟩ := ih
    -- shift of the "first offender" description by one good field
    have shift : ∀ (P : Bytes → Prop), (∃ v, smGet kvs g = some v ∧ v ≠ .null) → ¬ P g → ∀ f,
        ((∃ p q, fs = p ++ f :: q ∧ (∀ g ∈ p, ∃ v, smGet kvs g = some v ∧ v ≠ .null) ∧ P f) ↔
        ∃ p q, g :: fs = p ++ f :: q ∧ (∀ g ∈ p, ∃ v, smGet kvs g = some v ∧ v ≠ .null) ∧ P f) := by
      intro P hg hP f
      constructor
      · rintro ⟨p, q, rfl, a, b⟩
        exact ⟨g :: p, q, rfl, fun x hx => by rcases List.mem_cons.1 hx with rfl | hx; exact hg; exact a x hx, b⟩
      · rintro ⟨p, q, he, a, b⟩
        cases p with
        | nil => simp at he; rw [← he.1] at b; exact absurd b hP
        | cons x p =>
          simp at he
          exact ⟨p, q, he.2, fun y hy => a y (by simp [hy]), b⟩
    simp only [checkFields]
    cases hg : smGet kvs g with
    | none =>
      refine ⟨?_, fun f => ?_, fun f => ?_⟩
      · simp [hg]
      · simp only [Required.missing.injEq]
        constructor
        · rintro rfl; exact ⟨[], fs, rfl, by simp, hg⟩
        · rintro ⟨p, q, he, a, b⟩
          cases p with
          | nil => simp at he; exact he.1
          | cons x p =>
            simp at he
            obtain ⟨v, hv, _⟩ := a x (by simp)
            rw [← he.1, hg] at hv; simp at hv
      · simp only [reduceCtorEq, false_iff]
        rintro ⟨p, q, he, a, b⟩
        cases p with
        | nil => simp at he; rw [← he.1, hg] at b; simp at b
        | cons x p =>
          simp at he
          obtain ⟨v, hv, _⟩ := a x (by simp)
          rw [← he.1, hg] at hv; simp at hv
    | some v =>
      by_cases hv : v = .null
      · subst hv
        refine ⟨?_, fun f => ?_, fun f => ?_⟩
        · simp [hg]
        · simp only [reduceCtorEq, false_iff]
          rintro ⟨p, q, he, a, b⟩
          cases p with
          | nil => simp at he; rw [← he.1, hg] at b; simp at b
          | cons x p =>
            simp at he
            obtain ⟨v, hv, hn⟩ := a x (by simp)
            rw [← he.1, hg] at hv; simp at hv; exact hn hv.symm
        · simp only [Required.isNil.injEq]
          constructor
          · rintro rfl; exact ⟨[], fs, rfl, by simp, hg⟩
          · rintro ⟨p, q, he, a, b⟩
            cases p with
            | nil => simp at he; exact he.1
            | cons x p =>
              simp at he
              obtain ⟨v, hv, hn⟩ := a x (by simp)
              rw [← he.1, hg] at hv; simp at hv; exact absurd hv.symm hn
      · have hstep : (match (some v : Option J) with
            | none => Required.missing g
            | some .null => Required.isNil g
            | some _ => checkFields kvs fs) = checkFields kvs fs := by cases v <;> simp_all
        have hgood : ∃ v, smGet kvs g = some v ∧ v ≠ .null := ⟨v, hg, hv⟩
        have goalEq : ∀ r, ((match (some v : Option J) with
            | none => Required.missing g
            | some .null => Required.isNil g
            | some _ => checkFields kvs fs) = r ↔ checkFields kvs fs = r) := fun r => by rw [hstep]
        refine ⟨(goalEq _).trans ?_, fun f => (goalEq _).trans ?_, fun f => (goalEq _).trans ?_⟩
        · rw [h1]
          constructor
          · intro h f hf
            rcases List.mem_cons.1 hf with rfl | hf
            · exact hgood
            · exact h f hf
          · intro h f hf; exact h f (by simp [hf])
        · rw [h2]; exact shift (fun f => smGet kvs f = none) hgood (by rw [hg]; simp) f
        · rw [h3]; exact shift (fun f => smGet kvs f = some .null) hgood (by rw [hg]; simpa using hv) f

example : checkRequiredFields (.dict 0 sampleDict) [b!"a", b!"n", b!"zz"] = .isNil b!"n" := rfl

/-- **C34, other data.** Data that is no dictionary is rejected, whatever the fields, even none. -/
theorem C34_not_a_dictionary (v : J) (hv : ¬ v.IsDict) (fields : List Bytes) : checkRequiredFields v fields = .notMap .unsupported := by
  cases v <;> first | rfl | exact absurd trivial hv

example : ¬ (J.str b!"x").IsDict := by simp [J.IsDict]

/-! ## C35 -/

/-- **C35.** `GetArrayOfPrefix(d, p)` terminates and returns the values of `p.0`, `p.1`, ... up to the first missing or
null one; `GetQueryStringArray` on a dictionary value terminates and returns the strings of "0", "1", ... up to the
first missing one. -/
theorem C35_indexed_keys (id : Int) (kvs : SMap J) (pre : Bytes) :
    (∃ xs, getArrayOfPrefix (.dict id kvs) pre = some xs ∧
      (∀ i x, xs[i]? = some x → (J.dict id kvs).get [pre ++ b!"." ++ intDec (i : Nat)] = .ok x ∧ x ≠ .null) ∧
      ∀ x, (J.dict id kvs).get [pre ++ b!"." ++ intDec (xs.length : Nat)] = .ok x → x = .null) ∧
    (∀ i m, smGet kvs pre = some (.dict i m) → ∃ ss, getQueryStringArray (.dict id kvs) pre = some ss ∧
      (∀ i s, ss[i]? = some s → (J.dict 0 m).getString [intDec (i : Nat)] = .ok s) ∧
      ∀ s, (J.dict 0 m).getString [intDec (ss.length : Nat)] ≠ .ok s) := by
  constructor
  · obtain ⟨xs, a, b, c⟩ := prefixLoop_spec id kvs pre (kvs.length + 1) 0 [] (by omega) rfl (by simp)
    exact ⟨xs, a, fun i x h => by simpa using b i x h, fun x h => c x (by simpa using h)⟩
  · intro i m hg
    obtain ⟨ss, a, b, c⟩ := indexedStrings_spec m (m.length + 1) 0 [] (by omega) rfl (by simp)
    refine ⟨ss, ?_, b, c⟩
    unfold getQueryStringArray
    rw [get_single, hg]
    exact a

/-- The other kinds: an array gives the strings of its elements in order, a string gives itself, anything else nothing. -/
theorem C35_query_string_array (id : Int) (kvs : SMap J) (key : Bytes) :
    (∀ xs, smGet kvs key = some (.arr xs) → getQueryStringArray (.dict id kvs) key = some (xs.map J.string0)) ∧
    (∀ s, smGet kvs key = some (.str s) → getQueryStringArray (.dict id kvs) key = some [s]) ∧
    (smGet kvs key = none → getQueryStringArray (.dict id kvs) key = some []) := by
  refine ⟨fun xs h => ?_, fun s h => ?_, fun h => ?_⟩
  · unfold getQueryStringArray
    rw [get_single, h]
    simp only [stringArray]
    congr 1
  · unfold getQueryStringArray
    rw [get_single, h]
  · unfold getQueryStringArray
    rw [get_single, h]

example : getArrayOfPrefix (.dict 0 [(b!"p.0", .int 1), (b!"p.1", .str b!"x"), (b!"p.3", .int 4)]) b!"p" =
    some [.int 1, .str b!"x"] := rfl

/-! ## C36 -/

/-- **C36.** `GetAnyString2` returns the string of the first listed key whose string is non-empty, with that key; two
empty strings iff there is none. -/
theorem C36_any_string (v : J) (keys : List Bytes) :
    (∃ p k q s, keys = p ++ k :: q ∧ (∀ g ∈ p, ∀ t, v.getString [g] = .ok t → t = []) ∧ v.getString [k] = .ok s ∧
      s ≠ [] ∧ getAnyString2 v keys = (s, k)) ∨
    ((∀ g ∈ keys, ∀ t, v.getString [g] = .ok t → t = []) ∧ getAnyString2 v keys = ([], [])) := by
  induction keys with
  | nil => exact Or.inr ⟨by simp, rfl⟩
  | cons k ks ih =>
    have skip : (∀ t, v.getString [k] = .ok t → t = []) → getAnyString2 v (k :: ks) = getAnyString2 v ks →
        (∃ p k' q s, k :: ks = p ++ k' :: q ∧ (∀ g ∈ p, ∀ t, v.getString [g] = .ok t → t = []) ∧
          v.getString [k'] = .ok s ∧ s ≠ [] ∧ getAnyString2 v (k :: ks) = (s, k')) ∨
        ((∀ g ∈ k :: ks, ∀ t, v.getString [g] = .ok t → t = []) ∧ getAnyString2 v (k :: ks) = ([], [])) := by
      intro hk he
      rcases ih with ⟨p, k', q, s, rfl, a, b, c, d⟩ | ⟨a, b⟩
      · refine Or.inl ⟨k :: p, k', q, s, rfl, fun g hg => ?_, b, c, by rw [he, d]⟩
        rcases List.mem_cons.1 hg with rfl | hg
        · exact hk
        · exact a g hg
      · refine Or.inr ⟨fun g hg => ?_, by rw [he, b]⟩
        rcases List.mem_cons.1 hg with rfl | hg
        · exact hk
        · exact a g hg
    cases hs : v.getString [k] with
    | ok s =>
      by_cases h0 : s = []
      · subst h0
        exact skip (fun t ht => by rw [hs] at ht; simpa using ht.symm) (by simp only [getAnyString2, hs]; rfl)
      · have : 0 < s.length := List.length_pos_iff.2 h0
        exact Or.inl ⟨[], k, ks, s, rfl, by simp, hs, h0, by simp only [getAnyString2, hs, this, if_true]⟩
    | err e => exact skip (fun t ht => by rw [hs] at ht; simp at ht) (by simp only [getAnyString2, hs])
    | diverge => exact skip (fun t ht => by rw [hs] at ht; simp at ht) (by simp only [getAnyString2, hs])

example : getAnyString2 (.dict 0 [(b!"a", .str []), (b!"b", .int 7)]) [b!"zz", b!"a", b!"b"] = (b!"7", b!"b") := rfl

end Jsonutils.Props
