import Verif.Proofs.OwnerAct

namespace Jsonutils

variable {N : Prop} {h : Heap}

theorem smGet_smDelete {α} {m : SMap α} (hs : SMap.Sorted m) (k k' : Bytes) : smGet (smDelete m k).1 k' = if k' = k then none else smGet m k' := by
  rw [smDelete_eq hs]
  simp only
  rw [smGet_filter_key m (fun x => decide (x ≠ k))]
  by_cases e : k' = k <;> simp [e]

theorem sorted_smDelete' {α} {m : SMap α} (hs : SMap.Sorted m) (k : Bytes) : SMap.Sorted (smDelete m k).1 := by
  rw [smDelete_eq hs]; exact sorted_filter hs _

/-- `Remove`, with what becomes of the removed value. -/
theorem remove_own {S : Addr → Prop} {id : Int} {kvs : SMap J} {d : Addr} (k : Bytes) (ho : Owned N h S (.dict id kvs) d) :
    ∃ h' S' Sw, removeH h d k = some ((smDelete kvs k).2, h') ∧ h'.length = h.length ∧ Frame (fun b => ¬ S b) h h' ∧ Owned N h' S' (.dict id (smDelete kvs k).1) d ∧
      (∀ b, S' b → S b) ∧ (∀ b, Sw b → S b) ∧ (∀ b, S' b → ¬ Sw b) ∧
      ∀ w, smGet kvs k = some w → ∃ b, pickH h d [.key k] = some b ∧ Owned N h' Sw w b := by
  cases ho with
  | leaf h1 => simp [J.leafObj] at h1
  | @dict S id kvs a rs B F h1 h2 h3 h4 h5 h6 h7 h8 =>
    have hf : Frame (fun b => b ≠ d) h (h.set d (.dict id (smDelete rs k).1)) := Frame.of_set h1 dict_not_leaf
    refine ⟨h.set d (.dict id (smDelete rs k).1), fun b => S b ∧ ¬ F k b, F k, ?_, by simp, frame_set h1 dict_not_leaf h2, ?_, fun b hb => hb.1,
      fun b hb => (h7 k b hb).1, fun b hb => hb.2, fun w hw => ⟨B k, ?_, (h6 k w hw).keep (hf.mono fun b hb => (h7 k b hb).2)⟩⟩
    · simp only [removeH, h1, Option.some.injEq, Prod.mk.injEq, and_true]
      rw [smDelete_eq h4, smDelete_eq h3]
      simp [h5]
    · refine .dict B (fun k' => if k' = k then (fun _ => False) else F k') (set_get h1) ⟨h2, fun hb => (h7 k _ hb).2 rfl⟩ (sorted_smDelete' h3 k) (sorted_smDelete' h4 k)
        (fun k' => ?_) (fun k' x hx => ?_) (fun k' b hb => ?_) (fun k1 k2 b hb1 hb2 => ?_)
      · rw [smGet_smDelete h4, smGet_smDelete h3]
        split
        · rfl
        · exact h5 k'
      · rw [smGet_smDelete h3] at hx
        split at hx
        · cases hx
        · rename_i e; rw [if_neg e]; exact (h6 k' x hx).keep (hf.mono fun b hb => (h7 k' b hb).2)
      · split at hb
        · exact hb.elim
        · rename_i e; exact ⟨⟨(h7 k' b hb).1, fun hb2 => e (h8 _ _ b hb hb2)⟩, (h7 k' b hb).2⟩
      · split at hb1
        · exact hb1.elim
        · split at hb2
          · exact hb2.elim
          · exact h8 _ _ b hb1 hb2
    · rw [pickH_key_dict h1, h5, hw]; rfl

/-- The shared instances are there. -/
structure HasBase (h : Heap) : Prop where
  null : h[nullAddr]? = some .null
  yes : h[1]? = some (.bool true)
  no : h[2]? = some (.bool false)

theorem HasBase.frame {S : Addr → Prop} {h' : Heap} (hb : HasBase h) (hf : Frame S h h') : HasBase h' :=
  ⟨hf _ _ hb.null (Or.inr trivial), hf _ _ hb.yes (Or.inr trivial), hf _ _ hb.no (Or.inr trivial)⟩

/-- The addresses from `n` up to `m`. -/
def Span (n m : Nat) : Addr → Prop := fun b => n ≤ b ∧ b < m

theorem Span.mono {n m n' m' : Nat} (h1 : n' ≤ n) (h2 : m ≤ m') (b : Addr) (hb : Span n m b) : Span n' m' b :=
  ⟨Nat.le_trans h1 hb.1, Nat.lt_of_lt_of_le hb.2 h2⟩

/-- What is new holds the document. -/
def BuildOk (N : Prop) (v : J) : Prop := ∀ h, HasBase h → h <+: (v.build h).2 ∧ Owned N (v.build h).2 (Span h.length (v.build h).2.length) v (v.build h).1

theorem alloc_leaf {v : J} {o : Obj} (hv : v ≠ .null) (hl : v.leafObj = some o) (h : Heap) (S : Addr → Prop) : Owned N (h.alloc o).2 S v (h.alloc o).1 :=
  .leaf hl (by simp [Heap.alloc]) fun _ e => absurd e hv

theorem builds_ok : ∀ (xs : List J), (∀ (i : Nat) x, xs[i]? = some x → BuildOk N x) → ∀ h, HasBase h → h <+: (J.builds xs h).2 ∧
    ∃ (B : Nat → Addr) (F : Nat → Addr → Prop), (∀ i : Nat, (J.builds xs h).1[i]? = (xs[i]?).map fun _ => some (B i)) ∧
      (∀ (i : Nat) x, xs[i]? = some x → Owned N (J.builds xs h).2 (F i) x (B i)) ∧ (∀ i b, F i b → Span h.length (J.builds xs h).2.length b) ∧
      ∀ i j b, F i b → F j b → i = j := by
  intro xs
  induction xs with
  | nil =>
    intro _ h hb
    exact ⟨List.prefix_refl _, fun _ => 0, fun _ _ => False, fun i => by simp [J.builds], fun i x hx => by simp at hx, fun _ _ hb => hb.elim, fun _ _ _ hb => hb.elim⟩
  | cons x xs ih =>
    intro hx h hb
    obtain ⟨g1, g2⟩ := hx 0 x rfl h hb
    obtain ⟨g3, B, F, g4, g5, g6, g7⟩ := ih (fun i y hy => hx (i + 1) y hy) (x.build h).2 (hb.frame (S := fun _ => False) (Frame.of_prefix g1))
    simp only [J.builds]
    generalize x.build h = r at *
    generalize J.builds xs r.2 = t at *
    have l1 := g1.length_le
    have l2 := g3.length_le
    refine ⟨g1.trans g3, fun i => match i with | 0 => r.1 | i + 1 => B i, fun i => match i with | 0 => Span h.length r.2.length | i + 1 => F i, fun i => ?_, fun i y hy => ?_,
      fun i b hb' => ?_, fun i j b hi hj => ?_⟩
    · cases i with
      | zero => rfl
      | succ i => simpa using g4 i
    · cases i with
      | zero => cases hy; exact g2.keep (Frame.of_prefix g3)
      | succ i => exact g5 i y (by simpa using hy)
    · cases i with
      | zero => exact Span.mono (Nat.le_refl _) l2 b hb'
      | succ i => exact Span.mono l1 (Nat.le_refl _) b (g6 i b hb')
    · cases i with
      | zero =>
        cases j with
        | zero => rfl
        | succ j => exact absurd (Nat.lt_of_lt_of_le hi.2 (g6 j b hj).1) (Nat.lt_irrefl _)
      | succ i =>
        cases j with
        | zero => exact absurd (Nat.lt_of_lt_of_le hj.2 (g6 i b hi).1) (Nat.lt_irrefl _)
        | succ j => rw [g7 i j b hi hj]

theorem buildf_ok : ∀ (kvs : List (Bytes × J)), (∀ k x, (k, x) ∈ kvs → BuildOk N x) → (kvs.map (·.1)).Nodup → ∀ h, HasBase h → h <+: (J.buildf kvs h).2 ∧
    ∃ (B : Bytes → Addr) (F : Bytes → Addr → Prop), (J.buildf kvs h).1 = (kvs.map fun e => (e.1, some (B e.1))) ∧
      (∀ k x, (k, x) ∈ kvs → Owned N (J.buildf kvs h).2 (F k) x (B k)) ∧ (∀ k b, F k b → Span h.length (J.buildf kvs h).2.length b) ∧
      ∀ k k' b, F k b → F k' b → k = k' := by
  intro kvs
  induction kvs with
  | nil =>
    intro _ _ h hb
    exact ⟨List.prefix_refl _, fun _ => 0, fun _ _ => False, rfl, fun i x hx => by simp at hx, fun _ _ hb => hb.elim, fun _ _ _ hb => hb.elim⟩
  | cons e kvs ih =>
    obtain ⟨k0, x⟩ := e
    intro hx hnd h hb
    simp only [List.map_cons, List.nodup_cons] at hnd
    obtain ⟨g1, g2⟩ := hx k0 x (by simp) h hb
    obtain ⟨g3, B, F, g4, g5, g6, g7⟩ := ih (fun i y hy => hx i y (by simp [hy])) hnd.2 (x.build h).2 (hb.frame (S := fun _ => False) (Frame.of_prefix g1))
    simp only [J.buildf]
    generalize x.build h = r at *
    generalize J.buildf kvs r.2 = t at *
    have l1 := g1.length_le
    have l2 := g3.length_le
    have hne : ∀ k y, (k, y) ∈ kvs → k ≠ k0 := fun k y hy e => hnd.1 (e ▸ List.mem_map.2 ⟨(k, y), hy, rfl⟩)
    refine ⟨g1.trans g3, fun k => if k = k0 then r.1 else B k, fun k => if k = k0 then Span h.length r.2.length else F k, ?_, fun k y hy => ?_,
      fun k b hb' => ?_, fun k k' b hi hj => ?_⟩
    · rw [List.map_cons, g4]
      simp only [if_true, List.cons.injEq, true_and]
      refine List.map_congr_left fun e he => ?_
      rw [if_neg (hne e.1 e.2 he)]
    · dsimp only
      rcases List.mem_cons.1 hy with e | e
      · cases e; rw [if_pos rfl, if_pos rfl]; exact g2.keep (Frame.of_prefix g3)
      · rw [if_neg (hne k y e), if_neg (hne k y e)]; exact g5 k y e
    · dsimp only at hb'
      split at hb'
      · exact Span.mono (Nat.le_refl _) l2 b hb'
      · exact Span.mono l1 (Nat.le_refl _) b (g6 k b hb')
    · dsimp only at hi hj
      split at hi <;> split at hj
      · rename_i e1 e2; rw [e1, e2]
      · exact absurd (Nat.lt_of_lt_of_le hi.2 (g6 _ b hj).1) (Nat.lt_irrefl _)
      · exact absurd (Nat.lt_of_lt_of_le hj.2 (g6 _ b hi).1) (Nat.lt_irrefl _)
      · exact g7 _ _ b hi hj

/-- A new array of what lies before it. -/
theorem own_newArr {n : Nat} {xs : List J} {rs : List Ref} {B : Nat → Addr} {F : Nat → Addr → Prop} (hn : n ≤ h.length)
    (g4 : ∀ i : Nat, rs[i]? = (xs[i]?).map fun _ => some (B i)) (g5 : ∀ (i : Nat) x, xs[i]? = some x → Owned N h (F i) x (B i))
    (g6 : ∀ i b, F i b → Span n h.length b) (g7 : ∀ i j b, F i b → F j b → i = j) :
    Owned N (h ++ [.arr rs]) (Span n (h ++ [Obj.arr rs]).length) (.arr xs) h.length := by
  refine .arr B F fresh_get ⟨hn, by simp⟩ g4 (fun i x hx => (g5 i x hx).keep (Frame.of_prefix (List.prefix_append _ _))) (fun i b hb => ⟨?_, ?_⟩) g7
  · exact Span.mono (Nat.le_refl _) (by simp) b (g6 i b hb)
  · intro e; exact Nat.lt_irrefl _ (e ▸ (g6 i b hb).2)

theorem own_newDict {n : Nat} {id : Int} {kvs : SMap J} {B : Bytes → Addr} {F : Bytes → Addr → Prop} (hn : n ≤ h.length) (hs : SMap.Sorted kvs)
    (g5 : ∀ k x, (k, x) ∈ kvs → Owned N h (F k) x (B k)) (g6 : ∀ k b, F k b → Span n h.length b) (g7 : ∀ k k' b, F k b → F k' b → k = k') :
    Owned N (h ++ [.dict id (kvs.map fun e => (e.1, some (B e.1)))]) (Span n (h.length + 1)) (.dict id kvs) h.length := by
  refine .dict B F fresh_get ⟨hn, by simp⟩ hs (sorted_of_keys (m := kvs) (by simp) hs) (fun k => smGet_mapkey kvs (fun k => some (B k)) k)
    (fun k x hx => (g5 k x (smGet_mem hx)).keep (Frame.of_prefix (List.prefix_append _ _))) (fun i b hb => ⟨?_, ?_⟩) g7
  · exact Span.mono (Nat.le_refl _) (by simp) b (g6 i b hb)
  · intro e; exact Nat.lt_irrefl _ (e ▸ (g6 i b hb).2)

theorem build_ok (v : J) : v.WF → v.NoPtr → BuildOk N v := by
  induction v using J.ind with
  | null => intro _ _ h hb; simp only [J.build]; exact ⟨List.prefix_refl _, .leaf rfl hb.null fun _ _ => rfl⟩
  | bool b =>
    intro _ _ h hb
    cases b
    · simp only [J.build]; exact ⟨List.prefix_refl _, .leaf rfl hb.no (by intro _ e; cases e)⟩
    · simp only [J.build]; exact ⟨List.prefix_refl _, .leaf rfl hb.yes (by intro _ e; cases e)⟩
  | int n => intro _ _ h hb; simp only [J.build]; exact ⟨⟨_, rfl⟩, alloc_leaf (by intro e; cases e) rfl h _⟩
  | float x bit => intro _ _ h hb; simp only [J.build]; exact ⟨⟨_, rfl⟩, alloc_leaf (by intro e; cases e) rfl h _⟩
  | str s => intro _ _ h hb; simp only [J.build]; exact ⟨⟨_, rfl⟩, alloc_leaf (by intro e; cases e) rfl h _⟩
  | ptr id => intro _ hp; simp [J.NoPtr] at hp
  | arr xs ih =>
    intro hw hp h hb
    simp only [J.WF] at hw
    simp only [J.NoPtr] at hp
    obtain ⟨g3, B, F, g4, g5, g6, g7⟩ := builds_ok xs (fun i x hx => ih i x hx (wfs_get hw hx) (noPtrs_get hp hx)) h hb
    simp only [J.build, Heap.alloc]
    exact ⟨g3.trans (List.prefix_append _ _), own_newArr g3.length_le g4 g5 g6 g7⟩
  | dict id kvs ih =>
    intro hw hp h hb
    simp only [J.WF] at hw
    simp only [J.NoPtr] at hp
    obtain ⟨g3, B, F, g4, g5, g6, g7⟩ := buildf_ok kvs (fun k x hx => ih k x hx (wff_mem hw.2 hx) (noPtrf_get hp hx)) (sorted_keys_nodup hw.1) h hb
    simp only [J.build, Heap.alloc, g4]
    refine ⟨g3.trans (List.prefix_append _ _), ?_⟩
    have := own_newDict (id := id) g3.length_le hw.1 g5 g6 g7
    simpa using this

theorem perm_of_map {α β} (f : α → β) {l1 m : List β} (hp : l1.Perm m) : ∀ {l2 : List α}, m = l2.map f → ∃ l : List α, l.Perm l2 ∧ l1 = l.map f := by
  induction hp with
  | nil => intro l2 h; exact ⟨[], by cases l2 <;> simp at h ⊢, rfl⟩
  | cons x _ ih =>
    intro l2 h
    cases l2 with
    | nil => simp at h
    | cons y l2 =>
      simp only [List.map_cons, List.cons.injEq] at h
      obtain ⟨l, h1, h2⟩ := ih h.2
      exact ⟨y :: l, h1.cons y, by rw [List.map_cons, h2, h.1]⟩
  | swap x y l =>
    intro l2 h
    match l2, h with
    | a :: b :: l2, h =>
      simp only [List.map_cons, List.cons.injEq] at h
      exact ⟨b :: a :: l2, .swap _ _ _, by simp [h.1, h.2.1, h.2.2]⟩
  | trans _ _ ih1 ih2 =>
    intro l2 h
    obtain ⟨l, h1, h2⟩ := ih2 h
    obtain ⟨l', h3, h4⟩ := ih1 h2
    exact ⟨l', h3.trans h1, h4⟩

/-! ### `DeepCopy` -/

variable {ord : SMap Ref → SMap Ref}

/-- `DeepCopy` of what is at `a` in an extension of the memory. -/
def CopyOwn (ord : SMap Ref → SMap Ref) (h : Heap) (v : J) (a : Addr) : Prop :=
  ∀ hh, h <+: hh → ∃ f0 a' h', hh <+: h' ∧ Owned False h' (Span hh.length h'.length) v.dropIds a' ∧ ∀ f, f0 ≤ f → deepCopyH ord f hh (some a) = .ok (some a', h')

theorem copyOwns : ∀ (xs : List J) (rs : List Ref) (B : Nat → Addr), (∀ i : Nat, rs[i]? = (xs[i]?).map fun _ => some (B i)) →
    (∀ (i : Nat) x, xs[i]? = some x → CopyOwn ord h x (B i)) → ∀ hh, h <+: hh → ∃ f0 ys h', hh <+: h' ∧
      (∃ (B : Nat → Addr) (F : Nat → Addr → Prop), (∀ i : Nat, ys[i]? = ((J.dropIdss xs)[i]?).map fun _ => some (B i)) ∧
        (∀ (i : Nat) x, (J.dropIdss xs)[i]? = some x → Owned False h' (F i) x (B i)) ∧ (∀ i b, F i b → Span hh.length h'.length b) ∧ ∀ i j b, F i b → F j b → i = j) ∧
      ∀ f, f0 ≤ f → deepCopysH ord f hh rs = .ok (ys, h') := by
  intro xs
  induction xs with
  | nil =>
    intro rs B hr _ hh _
    have : rs = [] := by simpa using hr 0
    subst this
    refine ⟨0, [], hh, List.prefix_refl _, ⟨fun _ => 0, fun _ _ => False, fun i => by simp [J.dropIdss], fun i x hx => by simp [J.dropIdss] at hx, fun _ _ hb => hb.elim,
      fun _ _ _ hb => hb.elim⟩, fun f _ => ?_⟩
    cases f <;> simp [deepCopysH]
  | cons x xs ih =>
    intro rs B hr hx hh hp
    cases rs with
    | nil => have := hr 0; simp at this
    | cons r rs =>
      have h0 := hr 0
      simp only [List.getElem?_cons_zero, Option.map_some, Option.some.injEq] at h0
      subst h0
      obtain ⟨f1, a', h1, g1, g2, g3⟩ := hx 0 x rfl hh hp
      obtain ⟨f2, ys, h2, j1, ⟨B', F', j2, j3, j4, j5⟩, j6⟩ := ih rs (fun i => B (i + 1)) (fun i => by simpa using hr (i + 1))
        (fun i y hy => hx (i + 1) y (by simpa using hy)) h1 (hp.trans g1)
      have l1 := g1.length_le
      have l2 := j1.length_le
      refine ⟨max f1 f2 + 1, some a' :: ys, h2, g1.trans j1, ⟨fun i => match i with | 0 => a' | i + 1 => B' i,
        fun i => match i with | 0 => Span hh.length h1.length | i + 1 => F' i, fun i => ?_, fun i y hy => ?_, fun i b hb => ?_, fun i j b hi hj => ?_⟩, fun f hf => ?_⟩
      · cases i with
        | zero => rfl
        | succ i => simpa [J.dropIdss] using j2 i
      · cases i with
        | zero => simp only [J.dropIdss, List.getElem?_cons_zero, Option.some.injEq] at hy; subst hy; exact g2.keep (Frame.of_prefix j1)
        | succ i => exact j3 i y (by simpa [J.dropIdss] using hy)
      · cases i with
        | zero => exact Span.mono (Nat.le_refl _) l2 b hb
        | succ i => exact Span.mono l1 (Nat.le_refl _) b (j4 i b hb)
      · cases i with
        | zero =>
          cases j with
          | zero => rfl
          | succ j => exact absurd (Nat.lt_of_lt_of_le hi.2 (j4 j b hj).1) (Nat.lt_irrefl _)
        | succ i =>
          cases j with
          | zero => exact absurd (Nat.lt_of_lt_of_le hj.2 (j4 i b hi).1) (Nat.lt_irrefl _)
          | succ j => rw [j5 i j b hi hj]
      · obtain ⟨f, rfl⟩ : ∃ g, f = g + 1 := ⟨f - 1, by omega⟩
        simp only [deepCopysH, g3 f (by omega), j6 f (by omega)]

theorem copyOwnf (B : Bytes → Addr) : ∀ (kvs : List (Bytes × J)), (kvs.map (·.1)).Nodup → (∀ k x, (k, x) ∈ kvs → CopyOwn ord h x (B k)) → ∀ hh, h <+: hh →
    ∃ f0 h', hh <+: h' ∧ ∃ (B' : Bytes → Addr) (F : Bytes → Addr → Prop),
        (∀ k x, (k, x) ∈ kvs → Owned False h' (F k) x.dropIds (B' k)) ∧ (∀ k b, F k b → Span hh.length h'.length b) ∧ (∀ k k' b, F k b → F k' b → k = k') ∧
      ∀ f, f0 ≤ f → ∀ m, deepCopyfH ord f hh (kvs.map fun e => (e.1, some (B e.1))) m = .ok ((kvs.map fun e => (e.1, some (B' e.1))).foldl (fun m e => smAdd m e.1 e.2) m, h') := by
  intro kvs
  induction kvs with
  | nil =>
    intro _ _ hh _
    refine ⟨0, hh, List.prefix_refl _, fun _ => 0, fun _ _ => False, fun i x hx => by simp at hx, fun _ _ hb => hb.elim,
      fun _ _ _ hb => hb.elim, fun f _ m => ?_⟩
    cases f <;> simp [deepCopyfH]
  | cons e kvs ih =>
    obtain ⟨k0, x⟩ := e
    intro hnd hx hh hp
    simp only [List.map_cons, List.nodup_cons] at hnd
    obtain ⟨f1, a', h1, g1, g2, g3⟩ := hx k0 x (by simp) hh hp
    obtain ⟨f2, h2, j1, B', F', j3, j4, j5, j6⟩ := ih hnd.2 (fun k y hy => hx k y (by simp [hy])) h1 (hp.trans g1)
    have l1 := g1.length_le
    have l2 := j1.length_le
    have hne : ∀ k y, (k, y) ∈ kvs → k ≠ k0 := fun k y hy e => hnd.1 (e ▸ List.mem_map.2 ⟨(k, y), hy, rfl⟩)
    refine ⟨max f1 f2 + 1, h2, g1.trans j1, fun k => if k = k0 then a' else B' k,
      fun k => if k = k0 then Span hh.length h1.length else F' k, fun k y hy => ?_, fun k b hb => ?_, fun k k' b hi hj => ?_, fun f hf m => ?_⟩
    · dsimp only
      rcases List.mem_cons.1 hy with e | e
      · cases e; rw [if_pos rfl, if_pos rfl]; exact g2.keep (Frame.of_prefix j1)
      · rw [if_neg (hne k y e), if_neg (hne k y e)]; exact j3 k y e
    · dsimp only at hb
      split at hb
      · exact Span.mono (Nat.le_refl _) l2 b hb
      · exact Span.mono l1 (Nat.le_refl _) b (j4 k b hb)
    · dsimp only at hi hj
      split at hi <;> split at hj
      · rename_i e1 e2; rw [e1, e2]
      · exact absurd (Nat.lt_of_lt_of_le hi.2 (j4 _ b hj).1) (Nat.lt_irrefl _)
      · exact absurd (Nat.lt_of_lt_of_le hj.2 (j4 _ b hi).1) (Nat.lt_irrefl _)
      · exact j5 _ _ b hi hj
    · obtain ⟨f, rfl⟩ : ∃ g, f = g + 1 := ⟨f - 1, by omega⟩
      have hm : (kvs.map fun e => (e.1, some (if e.1 = k0 then a' else B' e.1))) = kvs.map fun e => (e.1, some (B' e.1)) :=
        List.map_congr_left fun e he => by rw [if_neg (hne e.1 e.2 he)]
      simp only [List.map_cons, deepCopyfH, g3 f (by omega), j6 f (by omega), List.foldl_cons, if_true, hm]

theorem copy_own (hord : ∀ l, (ord l).Perm l) {S : Addr → Prop} {v : J} {a : Addr} (ho : Owned N h S v a) : CopyOwn ord h v a := by
  induction ho with
  | @leaf S v a o h1 h2 _ =>
    intro hh hp
    have h2' := prefix_get hp h2
    refine ⟨1, hh.length, hh ++ [o], List.prefix_append _ _, .leaf (o := o) ?_ fresh_get (fun x => x.elim), fun f hf => ?_⟩
    · cases v <;> first | exact h1 | simp [J.leafObj] at h1
    · obtain ⟨f, rfl⟩ : ∃ g, f = g + 1 := ⟨f - 1, by omega⟩
      have := leafObj_leaf h1
      cases o <;> first | exact this.elim | simp only [deepCopyH, h2', Heap.alloc]
  | @arr S xs a rs B F h1 _ h3 _ _ _ ih =>
    intro hh hp
    obtain ⟨f0, ys, h', g1, ⟨B', F', g2, g3, g4, g5⟩, g6⟩ := copyOwns xs rs B h3 ih hh hp
    refine ⟨f0 + 1, h'.length, h' ++ [.arr ys], g1.trans (List.prefix_append _ _), ?_, fun f hf => ?_⟩
    · simp only [J.dropIds]; exact own_newArr g1.length_le g2 g3 g4 g5
    · obtain ⟨f, rfl⟩ : ∃ g, f = g + 1 := ⟨f - 1, by omega⟩
      simp only [deepCopyH, prefix_get hp h1, g6 f (by omega), Heap.alloc]
  | @dict S id kvs a rs B F h1 _ h3 h4 h5 _ _ _ ih =>
    intro hh hp
    have hrs := rs_eq h3 h4 h5
    -- the order in which the entries are visited
    obtain ⟨l, hl, hl2⟩ : ∃ l : List (Bytes × J), l.Perm kvs ∧ ord rs = l.map fun e => (e.1, some (B e.1)) := by
      have h0 : (ord rs).Perm (kvs.map fun e => (e.1, some (B e.1))) := hrs ▸ hord rs
      exact perm_of_map _ h0 rfl
    have hnd : (l.map (·.1)).Nodup := ((hl.map (fun e : Bytes × J => e.1)).nodup_iff).2 (sorted_keys_nodup h3)
    obtain ⟨f0, h', g1, B', F', g3, g4, g5, g6⟩ := copyOwnf B l hnd (fun k x hx => ih k x (smGet_of_mem h3 (hl.mem_iff.1 hx))) hh hp
    have hs' : SMap.Sorted (J.dropIdsf kvs) := by rw [dropIdsf_map]; exact sorted_map_snd _ h3
    have hmap : ((J.dropIdsf kvs).map fun e => (e.1, some (B' e.1))) = kvs.map fun e => (e.1, some (B' e.1)) := by
      rw [dropIdsf_map, List.map_map]; rfl
    have hfold : (l.map fun e => (e.1, some (B' e.1))).foldl (fun m e => smAdd m e.1 e.2) [] = kvs.map fun e => (e.1, some (B' e.1)) :=
      foldl_smAdd_perm' (sorted_of_keys (m := kvs) (by simp) h3) (hl.map _)
    refine ⟨f0 + 1, h'.length, h' ++ [.dict 0 (kvs.map fun e => (e.1, some (B' e.1)))], g1.trans (List.prefix_append _ _), ?_, fun f hf => ?_⟩
    · simp only [J.dropIds]
      have := own_newDict (id := 0) g1.length_le hs' (B := B') (F := F') (fun k x hx => by
        rw [dropIdsf_map] at hx
        obtain ⟨e, he, heq⟩ := List.mem_map.1 hx
        cases heq
        exact g3 e.1 e.2 (hl.mem_iff.2 he)) g4 g5
      rw [hmap] at this
      simpa using this
    · obtain ⟨f, rfl⟩ : ∃ g, f = g + 1 := ⟨f - 1, by omega⟩
      have hne : nilEntry rs = false := by
        simp only [nilEntry, List.any_eq_false, hrs]
        intro e he
        obtain ⟨e', _, rfl⟩ := List.mem_map.1 he
        simp
      simp only [deepCopyH, prefix_get hp h1, hne, Bool.false_eq_true, if_false, hl2, g6 f (by omega), hfold, Heap.alloc]

end Jsonutils
