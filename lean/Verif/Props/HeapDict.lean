import Verif.Proofs.HeapDict
import Verif.Props.HeapRead

/-!
# C78: dictionaries made from dictionaries
-/

namespace Jsonutils.Props
open Jsonutils

/-- **C78, copies.** `CopyExcludes(ks...)` panics exactly if an entry to be copied is nil.  Otherwise it returns a new dictionary with
exactly the entries under the other keys, holding the very same objects, and nothing that existed changes. -/
theorem C78_copyExcludes (h : Heap) (ht : h.Tidy) (d : Addr) (hd : DictAt h d) (ks : List Bytes) :
    (copyExcludesH h d ks = none ↔ ∃ k, k ∉ ks ∧ Entry h d k none) ∧
    (∀ c h', copyExcludesH h d ks = some (c, h') → h <+: h' ∧ h.length ≤ c ∧ Holds h' c fun k r => Entry h d k r ∧ k ∉ ks) := by
  obtain ⟨id, kvs, ho⟩ := hd
  have hs := ht d id kvs ho
  have hent : ∀ k r, Entry h d k r ↔ (k, r) ∈ kvs := fun k r =>
    ⟨fun ⟨i, m, h1, h2⟩ => by rw [ho] at h1; cases h1; exact h2, fun hm => ⟨id, kvs, ho, hm⟩⟩
  have hfold : kvs.foldl (fun m kv => if ks.contains kv.1 then m else smAdd m kv.1 kv.2) [] = kvs.filter fun e => !ks.contains e.1 := by
    rw [← foldl_filter_sorted hs]
    congr 1
    funext m kv
    cases ks.contains kv.1 <;> rfl
  simp only [copyExcludesH, ho, hfold]
  constructor
  · constructor
    · intro he
      split at he
      · rename_i hn
        obtain ⟨k, hk⟩ := nilEntry_iff.1 hn
        simp only [List.mem_filter, Bool.not_eq_true', List.contains_eq_mem, decide_eq_false_iff_not] at hk
        exact ⟨k, hk.2, (hent k none).2 hk.1⟩
      · cases he
    · rintro ⟨k, h1, h2⟩
      rw [if_pos (nilEntry_iff.2 ⟨k, by
        simp only [List.mem_filter, Bool.not_eq_true', List.contains_eq_mem, decide_eq_false_iff_not]; exact ⟨(hent k none).1 h2, h1⟩⟩)]
  · intro c h' he
    split at he
    · cases he
    · cases he
      refine ⟨alloc_prefix _ _, Nat.le_refl _, 0, _, alloc_get h _, sorted_filter hs _, fun k r => ?_⟩
      simp only [List.mem_filter, Bool.not_eq_true', List.contains_eq_mem, decide_eq_false_iff_not, hent]

/-- **C78, copies of the named entries.** The same for `CopyIncludes(ks...)`. -/
theorem C78_copyIncludes (h : Heap) (ht : h.Tidy) (d : Addr) (hd : DictAt h d) (ks : List Bytes) :
    (copyIncludesH h d ks = none ↔ ∃ k, k ∈ ks ∧ Entry h d k none) ∧
    (∀ c h', copyIncludesH h d ks = some (c, h') → h <+: h' ∧ h.length ≤ c ∧ Holds h' c fun k r => Entry h d k r ∧ k ∈ ks) := by
  obtain ⟨id, kvs, ho⟩ := hd
  have hs := ht d id kvs ho
  have hent : ∀ k r, Entry h d k r ↔ (k, r) ∈ kvs := fun k r =>
    ⟨fun ⟨i, m, h1, h2⟩ => by rw [ho] at h1; cases h1; exact h2, fun hm => ⟨id, kvs, ho, hm⟩⟩
  have hfold : kvs.foldl (fun m kv => if ks.contains kv.1 then smAdd m kv.1 kv.2 else m) [] = kvs.filter fun e => ks.contains e.1 :=
    foldl_filter_sorted hs fun e => ks.contains e.1
  simp only [copyIncludesH, ho, hfold]
  constructor
  · constructor
    · intro he
      split at he
      · rename_i hn
        obtain ⟨k, hk⟩ := nilEntry_iff.1 hn
        simp only [List.mem_filter, List.contains_eq_mem, decide_eq_true_eq] at hk
        exact ⟨k, hk.2, (hent k none).2 hk.1⟩
      · cases he
    · rintro ⟨k, h1, h2⟩
      rw [if_pos (nilEntry_iff.2 ⟨k, by simp only [List.mem_filter, List.contains_eq_mem, decide_eq_true_eq]; exact ⟨(hent k none).1 h2, h1⟩⟩)]
  · intro c h' he
    split at he
    · cases he
    · cases he
      refine ⟨alloc_prefix _ _, Nat.le_refl _, 0, _, alloc_get h _, sorted_filter hs _, fun k r => ?_⟩
      simp only [List.mem_filter, List.contains_eq_mem, decide_eq_true_eq, hent]

/-- The entries of the two dictionaries, those of `win` winning. -/
theorem merge_entries {win los : SMap Ref} (hw : SMap.Sorted win) (hl : SMap.Sorted los) (k : Bytes) (r : Ref) :
    (k, r) ∈ smMerge los win ↔ (k, r) ∈ win ∨ (k, r) ∈ los ∧ ∀ r', (k, r') ∉ win := by
  rw [← smGet_iff_mem (sorted_smMerge hl win), smGet_smMerge hl hw, ← smGet_none_iff hw, ← smGet_iff_mem hw, ← smGet_iff_mem hl]
  cases smGet win k <;> simp

/-- **C78, `Update` and `UpdateDefault`.** On two dictionaries only the receiver changes: it then has the entries of both, holding the very
same objects; under a key of both it holds the argument's object after `Update`, its own after `UpdateDefault`. -/
theorem C78_update (h : Heap) (ht : h.Tidy) (d o : Addr) (hd : DictAt h d) (ho : DictAt h o) :
    (∃ h', updateH h d o = some h' ∧ (∀ x, x ≠ d → h'[x]? = h[x]?) ∧ Holds h' d fun k r => Entry h o k r ∨ Entry h d k r ∧ ¬ HasKey h o k) ∧
    (∃ h', updateDefaultH h d o = some h' ∧ (∀ x, x ≠ d → h'[x]? = h[x]?) ∧ Holds h' d fun k r => Entry h d k r ∨ Entry h o k r ∧ ¬ HasKey h d k) := by
  obtain ⟨id, kvs, hd⟩ := hd
  obtain ⟨id2, kvs2, ho⟩ := ho
  have hs := ht d id kvs hd
  have hs2 := ht o id2 kvs2 ho
  have hent : ∀ {d : Addr} {id : Int} {kvs : SMap Ref}, h[d]? = some (.dict id kvs) → ∀ k r, Entry h d k r ↔ (k, r) ∈ kvs := fun ho k r =>
    ⟨fun ⟨i, m, h1, h2⟩ => by rw [ho] at h1; cases h1; exact h2, fun hm => ⟨_, _, ho, hm⟩⟩
  constructor
  · refine ⟨_, by simp only [updateH, hd, ho], fun x hx => set_get_ne _ hx, id, _, set_get hd, sorted_smMerge hs kvs2, fun k r => ?_⟩
    rw [merge_entries hs2 hs]
    simp only [HasKey, hent hd, hent ho, not_exists]
  · refine ⟨_, by simp only [updateDefaultH, hd, ho], fun x hx => set_get_ne _ hx, id, _, set_get hd, sorted_smMerge hs2 kvs, fun k r => ?_⟩
    rw [merge_entries hs hs2]
    simp only [HasKey, hent hd, hent ho, not_exists]

/-- **C78, `Diff`.** When `Diff(a, b)` returns, it has made four different new dictionaries and nothing that existed has changed.  The first
and the last hold the entries of `a` and `b` whose key the other one lacks; the third those of `a` whose value equals that of `b`; the second
has the common keys with unequal values, under each of them a new array, its own, of the two values.  All values are the very objects of `a`
and `b`. -/
theorem C78_diff (f : Nat) (h : Heap) (hok : h.Ok) (ht : h.Tidy) (a b : Addr) (ha : DictAt h a) (hb : DictAt h b) (r1 r2 r3 r4 : Addr) (h' : Heap)
    (hr : diffH f h a b = .ok ((r1, r2, r3, r4), h')) :
    h <+: h' ∧ h.length ≤ r1 ∧ h.length ≤ r2 ∧ h.length ≤ r3 ∧ h.length ≤ r4 ∧ [r1, r2, r3, r4].Nodup ∧
    Holds h' r1 (fun k x => Entry h a k x ∧ ¬ HasKey h b k) ∧
    Holds h' r3 (fun k x => Entry h a k x ∧ ∃ y, Entry h b k y ∧ equalsH f h x y = .ok true) ∧
    Holds h' r4 (fun k y => Entry h b k y ∧ ¬ HasKey h a k) ∧
    (∃ m, h'[r2]? = some (.dict 0 m) ∧ SMap.Sorted m ∧
      (∀ k, (∃ c, (k, c) ∈ m) ↔ ∃ x y, Entry h a k x ∧ Entry h b k y ∧ equalsH f h x y = .ok false) ∧
      (∀ k c, (k, c) ∈ m → ∃ n x y, c = some n ∧ h.length ≤ n ∧ h'[n]? = some (.arr [x, y]) ∧ Entry h a k x ∧ Entry h b k y) ∧
      (∀ k k' c, (k, c) ∈ m → (k', c) ∈ m → k = k')) ∧
    (∀ k x y, Entry h a k x → Entry h b k y → x ≠ none ∧ y ≠ none) := by
  obtain ⟨id, kvs, ha⟩ := ha
  obtain ⟨id2, kvs2, hb⟩ := hb
  have hs := ht a id kvs ha
  have hs2 := ht b id2 kvs2 hb
  have hent : ∀ {d : Addr} {id : Int} {kvs : SMap Ref}, h[d]? = some (.dict id kvs) → ∀ k r, Entry h d k r ↔ (k, r) ∈ kvs := fun ho k r =>
    ⟨fun ⟨i, m, h1, h2⟩ => by rw [ho] at h1; cases h1; exact h2, fun hm => ⟨_, _, ho, hm⟩⟩
  have hin : ∀ {d : Addr} {id : Int} {kvs : SMap Ref}, h[d]? = some (.dict id kvs) → ∀ e ∈ kvs, RefsIn h [e.2] := by
    intro d id kvs ho e he b hb
    simp only [List.mem_singleton] at hb
    exact hok.inside _ (List.mem_of_getElem? ho) b (List.mem_map.2 ⟨e, he, hb.symm⟩)
  simp only [diffH, ha, hb, smSplit] at hr
  have hS : ∀ {k : Bytes}, (smGet kvs2 k).isSome = true ↔ ∃ y, (k, y) ∈ kvs2 := by
    intro k
    rw [Option.isSome_iff_exists]
    exact ⟨fun ⟨y, hy⟩ => ⟨y, smGet_mem hy⟩, fun ⟨y, hy⟩ => ⟨y, smGet_of_mem hs2 hy⟩⟩
  have hcom : SMap.Sorted (kvs.filter fun kv => (smGet kvs2 kv.1).isSome) := sorted_filter hs _
  have hcom2 : SMap.Sorted (kvs2.filter fun kv => (smGet kvs kv.1).isSome) := sorted_filter hs2 _
  have hget2 : ∀ {k y}, smGet (kvs2.filter fun kv => (smGet kvs kv.1).isSome) k = some y ↔ (k, y) ∈ kvs2 ∧ ∃ x, (k, x) ∈ kvs := by
    intro k y
    rw [smGet_iff_mem hcom2, List.mem_filter, Option.isSome_iff_exists]
    exact ⟨fun ⟨h1, x, hx⟩ => ⟨h1, x, smGet_mem hx⟩, fun ⟨h1, x, hx⟩ => ⟨h1, x, smGet_of_mem hs hx⟩⟩
  split at hr
  case h_2 => cases hr
  case h_3 => cases hr
  rename_i dif same h0 hloop
  simp only [CRes.ok.injEq, Prod.mk.injEq] at hr
  obtain ⟨⟨rfl, rfl, rfl, rfl⟩, rfl⟩ := hr
  obtain ⟨g1, g2, g3, g4, g5, g6, g7, g8⟩ := diffLoop_ok (f := f) hok.inside
    (bA := kvs2.filter fun kv => (smGet kvs kv.1).isSome) (fun e he => hin hb e (List.mem_filter.1 he).1) _ h [] [] dif same h0
    List.prefix_rfl hcom (fun e he => hin ha e (List.mem_filter.1 he).1) sorted_nil sorted_nil (by simp) (by simp) (by simp) (by simp) hloop
  -- the memory after each allocation
  have hmem : ∀ {k x}, (k, x) ∈ (kvs.filter fun kv => (smGet kvs2 kv.1).isSome) ↔ (k, x) ∈ kvs ∧ ∃ y, (k, y) ∈ kvs2 := by
    intro k x; rw [List.mem_filter, hS]
  have p1 := alloc_prefix h0 (.dict 0 (kvs.filter fun kv => (smGet kvs2 kv.1).isNone))
  have e1 := alloc_get h0 (.dict 0 (kvs.filter fun kv => (smGet kvs2 kv.1).isNone))
  generalize hA1 : h0.alloc (.dict 0 (kvs.filter fun kv => (smGet kvs2 kv.1).isNone)) = A1 at *
  have q1 : @Eq Nat A1.1 h0.length := by rw [← hA1]; rfl
  have l1 : A1.2.length = h0.length + 1 := by rw [← hA1]; simp [Heap.alloc]
  have p2 := alloc_prefix A1.2 (.dict 0 dif)
  have e2 := alloc_get A1.2 (.dict 0 dif)
  generalize hA2 : A1.2.alloc (.dict 0 dif) = A2 at *
  have q2 : @Eq Nat A2.1 A1.2.length := by rw [← hA2]; rfl
  have l2 : A2.2.length = A1.2.length + 1 := by rw [← hA2]; simp [Heap.alloc]
  have p3 := alloc_prefix A2.2 (.dict 0 same)
  have e3 := alloc_get A2.2 (.dict 0 same)
  generalize hA3 : A2.2.alloc (.dict 0 same) = A3 at *
  have q3 : @Eq Nat A3.1 A2.2.length := by rw [← hA3]; rfl
  have l3 : A3.2.length = A2.2.length + 1 := by rw [← hA3]; simp [Heap.alloc]
  have p4 := alloc_prefix A3.2 (.dict 0 (kvs2.filter fun kv => (smGet kvs kv.1).isNone))
  have e4 := alloc_get A3.2 (.dict 0 (kvs2.filter fun kv => (smGet kvs kv.1).isNone))
  generalize hA4 : A3.2.alloc (.dict 0 (kvs2.filter fun kv => (smGet kvs kv.1).isNone)) = A4 at *
  have q4 : @Eq Nat A4.1 A3.2.length := by rw [← hA4]; rfl
  rw [← q1] at e1
  rw [← q2] at e2
  rw [← q3] at e3
  rw [← q4] at e4
  have l0 := g1.length_le
  refine ⟨g1.trans (p1.trans (p2.trans (p3.trans p4))), by omega, by omega, by omega, by omega, ?_, ?_, ?_, ?_, ?_, ?_⟩
  · simp only [List.nodup_cons, List.mem_cons, List.not_mem_nil, or_false, not_or, not_false_eq_true, List.nodup_nil, and_true]
    have n : ∀ {x y : Nat}, x < y → ¬ x = y := fun hlt he => by omega
    exact ⟨⟨n (by omega), n (by omega), n (by omega)⟩, ⟨n (by omega), n (by omega)⟩, n (by omega)⟩
  · refine ⟨0, _, prefix_get (p2.trans (p3.trans p4)) e1, sorted_filter hs _, fun k x => ?_⟩
    rw [List.mem_filter, Option.isNone_iff_eq_none, smGet_none_iff hs2]
    simp only [HasKey, hent ha, hent hb, not_exists]
  · refine ⟨0, _, prefix_get p4 e3, g3, fun k x => ?_⟩
    rw [g5]
    simp only [List.not_mem_nil, false_or, hmem, hget2, hent ha, hent hb]
    constructor
    · rintro ⟨⟨j1, _⟩, y, ⟨j2, _⟩, j3⟩; exact ⟨j1, y, j2, j3⟩
    · rintro ⟨j1, y, j2, j3⟩; exact ⟨⟨j1, y, j2⟩, y, ⟨j2, x, j1⟩, j3⟩
  · refine ⟨0, _, e4, sorted_filter hs2 _, fun k x => ?_⟩
    rw [List.mem_filter, Option.isNone_iff_eq_none, smGet_none_iff hs]
    simp only [HasKey, hent ha, hent hb, not_exists]
  · refine ⟨dif, prefix_get (p3.trans p4) e2, g2, fun k => ?_, fun k c hm => ?_, g8⟩
    · rw [g6]
      simp only [List.not_mem_nil, exists_false, false_or, hmem, hget2, hent ha, hent hb]
      constructor
      · rintro ⟨x, y, ⟨j1, _⟩, ⟨j2, _⟩, j3⟩; exact ⟨x, y, j1, j2, j3⟩
      · rintro ⟨x, y, j1, j2, j3⟩; exact ⟨x, y, ⟨j1, y, j2⟩, ⟨j2, x, j1⟩, j3⟩
    · rcases g7 k c hm with j | ⟨n, x, y, j1, j2, j3, j4, j5, j6⟩
      · cases j
      · exact ⟨n, x, y, j1, j2, prefix_get (p1.trans (p2.trans (p3.trans p4))) j4, (hent ha k x).2 (hmem.1 j5).1, (hent hb k y).2 (hget2.1 j6).1⟩
  · intro k x y hx hy
    rw [hent ha] at hx
    rw [hent hb] at hy
    obtain ⟨j1, y', j2, j3, _⟩ := g4 k x (hmem.2 ⟨hx, y, hy⟩)
    have : smGet (kvs2.filter fun kv => (smGet kvs kv.1).isSome) k = some y := hget2.2 ⟨hy, x, hx⟩
    rw [this] at j2; cases j2
    exact ⟨j1, j3⟩

/-- **C78, when `Diff` ends.** If no value of `a` contains itself, `Diff(a, b)` ends.  It panics if a key of both holds nil in one of them;
it returns if there is no nil in `a` and no nil dictionary entry in `b`. -/
theorem C78_diff_ends (h : Heap) (hok : h.Ok) (ht : h.Tidy) (a b : Addr) (ha : DictAt h a) (hb : DictAt h b) (hc : Knotless h (some a)) :
    ∃ f0, ∀ f, f0 ≤ f → diffH f h a b ≠ .fuel ∧
      ((∃ k x y, Entry h a k x ∧ Entry h b k y ∧ (x = none ∨ y = none)) → diffH f h a b = .panic) ∧
      (¬ HasNil h (some a) → ¬ HasNilEntry h (some b) → ∃ out, diffH f h a b = .ok out) := by
  have hda := ha
  have hdb := hb
  obtain ⟨id, kvs, ha⟩ := ha
  obtain ⟨id2, kvs2, hb⟩ := hb
  have hs2 := ht b id2 kvs2 hb
  have hs := ht a id kvs ha
  have hin : ∀ {d : Addr} {id : Int} {kvs : SMap Ref}, h[d]? = some (.dict id kvs) → ∀ e ∈ kvs, RefsIn h [e.2] := by
    intro d id kvs ho e he b hb
    simp only [List.mem_singleton] at hb
    exact hok.inside _ (List.mem_of_getElem? ho) b (List.mem_map.2 ⟨e, he, hb.symm⟩)
  have hkn : ∀ e ∈ kvs, ∃ f0, ∀ f, f0 ≤ f → ∀ s, equalsH f h e.2 s ≠ .fuel := by
    intro e he
    cases hc with
    | node ho hr =>
      rw [ha] at ho; cases ho
      exact equals_ends (hr e.2 (List.mem_map.2 ⟨e, he, rfl⟩))
  obtain ⟨f0, h0⟩ := common_bound (p := fun (e : Bytes × Ref) f => ∀ s, equalsH f h e.2 s ≠ .fuel) hkn
  refine ⟨f0, fun f hf => ?_⟩
  obtain ⟨b1, b2⟩ := diffLoop_bad (f := f) hok.inside (bA := kvs2.filter fun kv => (smGet kvs kv.1).isSome)
    (fun e he => hin hb e (List.mem_filter.1 he).1) (kvs.filter fun kv => (smGet kvs2 kv.1).isSome) h [] [] List.prefix_rfl
    (fun e he => hin ha e (List.mem_filter.1 he).1)
  have hnf : diffH f h a b ≠ .fuel := by
    simp only [diffH, ha, hb, smSplit]
    split
    · intro he; cases he
    · intro he; cases he
    · rename_i hl
      obtain ⟨k, x, y, hm, _, he⟩ := b2 hl
      exact absurd he (h0 f hf (k, x) (List.mem_filter.1 hm).1 y)
  refine ⟨hnf, ?_, ?_⟩
  · rintro ⟨k, x, y, hx, hy, hn⟩
    cases he : diffH f h a b with
    | panic => rfl
    | fuel => exact absurd he hnf
    | ok out =>
      obtain ⟨⟨r1, r2, r3, r4⟩, h'⟩ := out
      have := (C78_diff f h hok ht a b hda hdb r1 r2 r3 r4 h' he).2.2.2.2.2.2.2.2.2.2 k x y hx hy
      rcases hn with hn | hn
      · exact absurd hn this.1
      · exact absurd hn this.2
  · intro hna hnb
    cases he : diffH f h a b with
    | ok out => exact ⟨out, rfl⟩
    | fuel => exact absurd he hnf
    | panic =>
      exfalso
      simp only [diffH, ha, hb, smSplit] at he
      split at he
      · cases he
      · rename_i hl
        obtain ⟨k, x, hm, hbad⟩ := b1 hl
        have hka := (List.mem_filter.1 hm).1
        have hrx : x ∈ (Obj.dict id kvs).refs := List.mem_map.2 ⟨(k, x), hka, rfl⟩
        obtain ⟨y, hy⟩ := Option.isSome_iff_exists.1 (List.mem_filter.1 hm).2
        simp only at hy
        have hky := smGet_mem hy
        have hy' : smGet (kvs2.filter fun kv => (smGet kvs kv.1).isSome) k = some y :=
          smGet_of_mem (sorted_filter hs2 _) (List.mem_filter.2 ⟨hky, by rw [smGet_of_mem hs hka]; rfl⟩)
        rw [hy'] at hbad
        rcases hbad with rfl | hbad | ⟨y', h1, hbad⟩
        · exact hna (.inside ha hrx .here)
        · simp only [Option.getD_some] at hbad
          subst hbad
          exact hnb (.here hb hky)
        · cases h1
          rcases equals_panic hok.inside f x y (hin ha (k, x) hka) hbad with hx | hx
          · exact hna (.inside ha hrx hx)
          · exact hnb (.inside hb (List.mem_map.2 ⟨(k, y), hky, rfl⟩) hx)
      · cases he

/-- **C78, `Diff` of documents.** On two documents in memory it returns the four dictionaries of the `Diff` of the documents (C18). -/
theorem C78_diff_documents (h : Heap) (hok : h.Ok) (ht : h.Tidy) (a b : Addr) (i j : Int) (kvs kvs2 : SMap J) (ha : J.Seen h (.dict i kvs) a)
    (hb : J.Seen h (.dict j kvs2) b) :
    ∃ f0, ∀ f, f0 ≤ f → ∃ r1 r2 r3 r4 h', diffH f h a b = .ok ((r1, r2, r3, r4), h') ∧ J.Seen h' (.dict 0 (dictDiff kvs kvs2).1) r1 ∧
      J.Seen h' (.dict 0 (dictDiff kvs kvs2).2.1) r2 ∧ J.Seen h' (.dict 0 (dictDiff kvs kvs2).2.2.1) r3 ∧
      J.Seen h' (.dict 0 (dictDiff kvs kvs2).2.2.2) r4 := by
  simp only [J.At] at ha hb
  obtain ⟨_, rs, ha, hr⟩ := ha
  obtain ⟨_, ss, hb, hs⟩ := hb
  have hev : ∀ e ∈ kvs, ∃ f0, ∀ f, f0 ≤ f → ∀ (w : J) (a b : Addr), J.Seen h e.2 a → J.Seen h w b → equalsH f h (some a) (some b) = .ok (e.2.equals w) :=
    fun e _ => equals_val e.2
  obtain ⟨f0, h0⟩ := common_bound (p := fun (e : Bytes × J) f => ∀ (w : J) (a b : Addr), J.Seen h e.2 a → J.Seen h w b →
    equalsH f h (some a) (some b) = .ok (e.2.equals w)) hev
  have hsx : SMap.Sorted kvs := Atf_sorted hr (ht a _ _ ha)
  have hsy : SMap.Sorted kvs2 := Atf_sorted hs (ht b _ _ hb)
  refine ⟨f0, fun f hf => ?_⟩
  obtain ⟨dif', same', h2, g1, g2, g3, g4⟩ := diffLoop_seen (f := f) hok.inside (kvs.filter fun kv => (smGet kvs2 kv.1).isSome)
    (rs.filter fun kv => (smGet ss kv.1).isSome)
    (kvs2.filter fun kv => (smGet kvs kv.1).isSome) (ss.filter fun kv => (smGet rs kv.1).isSome)
    (by
      have := Atf_filter (fun k => (smGet kvs2 k).isSome) kvs rs hr
      simpa only [Atf_isSome hs] using this)
    (by
      have := Atf_filter (fun k => (smGet kvs k).isSome) kvs2 ss hs
      simpa only [Atf_isSome hr] using this)
    (by
      intro e he
      obtain ⟨y, hy⟩ := Option.isSome_iff_exists.1 (List.mem_filter.1 he).2
      exact ⟨y, smGet_of_mem (sorted_filter hsy _) (List.mem_filter.2 ⟨smGet_mem hy, by rw [smGet_of_mem hsx (List.mem_filter.1 he).1]; rfl⟩)⟩)
    (fun e he w a b => h0 f hf e (List.mem_filter.1 he).1 w a b) h [] [] [] [] List.prefix_rfl (by simp [J.Atf]) (by simp [J.Atf]) sorted_nil sorted_nil
    (fun e he b hm => hok.inside _ (List.mem_of_getElem? ha) b (List.mem_map.2 ⟨e, (List.mem_filter.1 he).1, (List.mem_singleton.1 hm).symm⟩))
    (fun e he b hm => hok.inside _ (List.mem_of_getElem? hb) b (List.mem_map.2 ⟨e, (List.mem_filter.1 he).1, (List.mem_singleton.1 hm).symm⟩))
  have f1 : J.Atf h2 (fun _ => True) (smSplit kvs kvs2).1 (smSplit rs ss).1 := by
    have := Atf_filter (fun k => (smGet kvs2 k).isNone) kvs rs hr
    simp only [← Atf_isNone hs] at this
    exact Atf_keep _ _ (by simpa only [smSplit, Atf_isNone hs] using this) fun _ _ _ _ hx => At_prefix g2 hx
  have f4 : J.Atf h2 (fun _ => True) (smSplit kvs kvs2).2.2.2 (smSplit rs ss).2.2.2 := by
    have := Atf_filter (fun k => (smGet kvs k).isNone) kvs2 ss hs
    simp only [← Atf_isNone hr] at this
    exact Atf_keep _ _ (by simpa only [smSplit, Atf_isNone hr] using this) fun _ _ _ _ hx => At_prefix g2 hx
  have seen : ∀ (h0 h1 : Heap) (m : SMap J) (q : SMap Ref), h2 <+: h0 → (h0.alloc (.dict 0 q)).2 <+: h1 → J.Atf h2 (fun _ => True) m q →
      J.Seen h1 (.dict 0 m) (h0.alloc (.dict 0 q)).1 := by
    intro h0 h1 m q p1 p2 hm
    simp only [J.At]
    exact ⟨trivial, q, prefix_get p2 (alloc_get h0 _), Atf_keep _ _ hm fun _ _ _ _ hx => At_prefix (p1.trans ((alloc_prefix h0 _).trans p2)) hx⟩
  simp only [diffH, ha, hb, smSplit, g1]
  simp only [smSplit] at f1 f4
  exact ⟨_, _, _, _, _, rfl,
    seen _ _ _ _ List.prefix_rfl ((alloc_prefix _ _).trans ((alloc_prefix _ _).trans (alloc_prefix _ _))) f1,
    seen _ _ _ _ (alloc_prefix _ _) ((alloc_prefix _ _).trans (alloc_prefix _ _)) g3,
    seen _ _ _ _ ((alloc_prefix _ _).trans (alloc_prefix _ _)) (alloc_prefix _ _) g4,
    seen _ _ _ _ ((alloc_prefix _ _).trans ((alloc_prefix _ _).trans (alloc_prefix _ _))) List.prefix_rfl f4⟩

/-- **C78, update by something else.** `Update` and `UpdateDefault` with an object that is no dictionary leave everything as it is. -/
theorem C78_update_other (h : Heap) (d o : Addr) (hd : DictAt h d) (x : Obj) (ho : h[o]? = some x) (hx : ¬ DictAt h o) :
    updateH h d o = some h ∧ updateDefaultH h d o = some h := by
  obtain ⟨id, kvs, hd⟩ := hd
  cases x with
  | dict id' kvs' => exact absurd ⟨id', kvs', ho⟩ hx
  | _ => simp only [updateH, updateDefaultH, hd, ho, and_self]

/-! Concrete cases in the memory `nilHeap` of `Props/HeapRead`: `{"a":nil}` at 4, `{"b":{"a":nil}}` at 7, `{"a":1}` at 8. -/

/-- `Diff` panics on a common key holding nil, in either order; not on a nil that only one side has; a copy that leaves the nil out works. -/
theorem C78_cases :
    diffH 9 nilHeap 8 4 = .panic ∧ diffH 9 nilHeap 4 8 = .panic ∧
    diffH 9 nilHeap 4 7 = .ok ((11, 12, 13, 14), nilHeap ++ [.dict 0 [(b!"a", none)], .dict 0 [], .dict 0 [], .dict 0 [(b!"b", some 4)]]) ∧
    diffH 9 nilHeap 8 8 = .ok ((11, 12, 13, 14), nilHeap ++ [.dict 0 [], .dict 0 [], .dict 0 [(b!"a", some 5)], .dict 0 []]) ∧
    copyExcludesH nilHeap 4 [] = none ∧ copyExcludesH nilHeap 4 [b!"a"] = some (11, nilHeap ++ [.dict 0 []]) ∧
    copyIncludesH nilHeap 4 [b!"a"] = none ∧ copyIncludesH nilHeap 4 [b!"b"] = some (11, nilHeap ++ [.dict 0 []]) :=
  ⟨rfl, rfl, rfl, rfl, rfl, rfl, rfl, rfl⟩

/-- `{"a":1}` and `{"a":2}`: the pair `[1,2]` under `a`, of the objects themselves. -/
example : ∃ h', diffH 9 (Heap.base ++ [.int 1, .int 2, .dict 0 [(b!"a", some 3)], .dict 0 [(b!"a", some 4)]]) 5 6 = .ok ((8, 9, 10, 11), h') ∧
    h'[9]? = some (.dict 0 [(b!"a", some 7)]) ∧ h'[7]? = some (.arr [some 3, some 4]) := ⟨_, rfl, rfl, rfl⟩

/-- The hypotheses of the theorems above are met by it. -/
example : nilHeap.Ok ∧ nilHeap.Tidy ∧ DictAt nilHeap 7 ∧ DictAt nilHeap 8 ∧ Knotless nilHeap (some 7) ∧ Entry nilHeap 4 b!"a" none ∧
    J.Seen nilHeap (.dict 0 [(b!"a", .int 1)]) 8 := by
  refine ⟨nilHeap_ok, nilHeap_tidy, ⟨0, _, rfl⟩, ⟨0, _, rfl⟩, ?_, ⟨0, [(b!"a", none)], rfl, by simp⟩, ?_⟩
  · refine .node (o := .dict 0 [(b!"b", some 4)]) rfl fun r hr => ?_
    simp [Obj.refs] at hr; subst hr
    refine .node (o := .dict 0 [(b!"a", none)]) rfl fun r hr => ?_
    simp [Obj.refs] at hr; subst hr; exact .nil
  · simp only [J.Seen, J.At, J.Atf]; exact ⟨trivial, [(b!"a", some 5)], rfl, 5, [], rfl, ⟨trivial, rfl⟩, rfl⟩

end Jsonutils.Props
