import Verif.Proofs.Owner

namespace Jsonutils

variable {N : Prop} {h : Heap}

/-- What a call on an owned object leaves: the rest is as it was, and the receiver owns what it had, the operand and new objects. -/
structure ActPost (N : Prop) (h : Heap) (S Sw : Addr → Prop) (d : Addr) (u' : J) (h' : Heap) : Prop where
  frame : Frame (fun b => ¬ S b) h h'
  grow : h.length ≤ h'.length
  owns : ∃ S' : Addr → Prop, Owned N h' S' u' d ∧ (∀ b, S' b → S b ∨ Sw b ∨ h.length ≤ b) ∧ ∀ b, S' b → b < h'.length

theorem own_put {S S' : Addr → Prop} {id : Int} {kvs : SMap J} {d : Addr} {rs : SMap Ref} {B : Bytes → Addr} {F : Bytes → Addr → Prop}
    (h2 : S d) (h3 : SMap.Sorted kvs) (h4 : SMap.Sorted rs)
    (h5 : ∀ k, smGet rs k = (smGet kvs k).map fun _ => some (B k)) (h6 : ∀ k x, smGet kvs k = some x → Owned N h (F k) x (B k))
    (h7 : ∀ k b, F k b → S b ∧ b ≠ d) (h8 : ∀ k k' b, F k b → F k' b → k = k') {h' : Heap} {k : Bytes} {x' : J} {b' : Addr}
    (hd : h'[d]? = some (.dict id (smAdd rs k (some b')))) (hfr : Frame (fun b => S b ∧ b ≠ d ∧ ¬ F k b) h h') (hx : Owned N h' S' x' b')
    (hS : ∀ b, S' b → b ≠ d ∧ (S b → F k b)) : Owned N h' (fun b => S b ∨ S' b) (.dict id (smAdd kvs k x')) d := by
  refine .dict (fun k' => if k' = k then b' else B k') (fun k' => if k' = k then S' else F k') hd (Or.inl h2) (sorted_smAdd h3 k _) (sorted_smAdd h4 k _)
    (fun k' => ?_) (fun k' y hy => ?_) (fun k' b hb => ?_) (fun k1 k2 b hb1 hb2 => ?_)
  · rw [smGet_smAdd _ h4, smGet_smAdd _ h3]
    by_cases e : k' = k
    · simp [e]
    · simp only [if_neg e]; exact h5 k'
  · rw [smGet_smAdd _ h3] at hy
    by_cases e : k' = k
    · simp only [if_pos e] at hy ⊢; cases hy; exact hx
    · simp only [if_neg e] at hy ⊢
      exact (h6 k' y hy).keep (hfr.mono fun b hb => ⟨(h7 k' b hb).1, (h7 k' b hb).2, fun hb2 => e (h8 _ _ b hb hb2)⟩)
  · by_cases e : k' = k
    · rw [if_pos e] at hb; exact ⟨Or.inr hb, (hS b hb).1⟩
    · rw [if_neg e] at hb; exact ⟨Or.inl (h7 k' b hb).1, (h7 k' b hb).2⟩
  · by_cases e1 : k1 = k
    · by_cases e2 : k2 = k
      · rw [e1, e2]
      · rw [if_pos e1] at hb1; rw [if_neg e2] at hb2
        rw [e1]; exact h8 _ _ b ((hS b hb1).2 (h7 k2 b hb2).1) hb2
    · by_cases e2 : k2 = k
      · rw [if_neg e1] at hb1; rw [if_pos e2] at hb2
        rw [e2]; exact h8 _ _ b hb1 ((hS b hb2).2 (h7 k1 b hb1).1)
      · rw [if_neg e1] at hb1; rw [if_neg e2] at hb2
        exact h8 _ _ b hb1 hb2

theorem dict_not_leaf {id : Int} {m : SMap Ref} : ¬ (Obj.dict id m).IsLeaf := fun h => h
theorem arr_not_leaf {m : List Ref} : ¬ (Obj.arr m).IsLeaf := fun h => h

/-- Setting one object of the region leaves the rest. -/
theorem frame_set {S : Addr → Prop} {d : Addr} {o o' : Obj} (ho : h[d]? = some o) (hl : ¬ o.IsLeaf) (hd : S d) : Frame (fun b => ¬ S b) h (h.set d o') :=
  (Frame.of_set ho hl).mono fun _ hb e => hb (e ▸ hd)

theorem set_own {S Sw : Addr → Prop} {id : Int} {kvs : SMap J} {d o : Addr} {w : J} (k : Bytes) (ho : Owned N h S (.dict id kvs) d) (hw : Owned N h Sw w o)
    (hdis : ∀ b, S b → ¬ Sw b) (hb : ∀ b, S b → b < h.length) (hbw : ∀ b, Sw b → b < h.length) :
    ∃ h', setH h d k (some o) = some h' ∧ ActPost N h S Sw d (.dict id (smAdd kvs k w)) h' := by
  cases ho with
  | leaf h1 => simp [J.leafObj] at h1
  | @dict S id kvs a rs B F h1 h2 h3 h4 h5 h6 h7 h8 =>
    refine ⟨h.set d (.dict id (smAdd rs k (some o))), by simp [setH, h1], frame_set h1 dict_not_leaf h2, by simp, ?_⟩
    refine ⟨_, own_put h2 h3 h4 h5 h6 h7 h8 (set_get h1) ((Frame.of_set h1 dict_not_leaf).mono fun b hb => hb.2.1)
      (hw.keep ((Frame.of_set h1 dict_not_leaf).mono fun b hb e => hdis d h2 (e ▸ hb))) (fun b hb => ⟨fun e => hdis d h2 (e ▸ hb), fun hb2 => absurd hb (hdis b hb2)⟩), ?_, ?_⟩
    · rintro b (hb | hb)
      · exact Or.inl hb
      · exact Or.inr (Or.inl hb)
    · rintro b (hb' | hb')
      · simpa using hb b hb'
      · simpa using hbw b hb'

theorem arr_own {S Sw : Addr → Prop} {xs : List J} {d o : Addr} {w : J} (j : Nat) (ho : Owned N h S (.arr xs) d) (hw : Owned N h Sw w o)
    (hdis : ∀ b, S b → ¬ Sw b) (hb : ∀ b, S b → b < h.length) (hbw : ∀ b, Sw b → b < h.length) :
    ∃ rs, h[d]? = some (.arr rs) ∧ rs.length = xs.length ∧ ∀ ys ss, (∀ i, ys[i]? = if i = j then some w else xs[i]?) → (∀ i, ss[i]? = if i = j then some (some o) else rs[i]?) →
      ActPost N h S Sw d (.arr ys) (h.set d (.arr ss)) := by
  cases ho with
  | leaf h1 => simp [J.leafObj] at h1
  | @arr S xs a rs B F h1 h2 h5 h6 h7 h8 =>
    have hlen : rs.length = xs.length := by
      rcases Nat.lt_trichotomy rs.length xs.length with hl | hl | hl
      · have := h5 rs.length
        rw [List.getElem?_eq_none (Nat.le_refl _), List.getElem?_eq_getElem hl] at this; simp at this
      · exact hl
      · have := h5 xs.length
        rw [List.getElem?_eq_none (l := xs) (Nat.le_refl _), List.getElem?_eq_getElem hl] at this; simp at this
    refine ⟨rs, h1, hlen, fun ys ss hys hss => ⟨frame_set h1 arr_not_leaf h2, by simp, fun b => S b ∨ Sw b, ?_, ?_, ?_⟩⟩
    · have hf : Frame (fun b => b ≠ d) h (h.set d (.arr ss)) := Frame.of_set h1 arr_not_leaf
      refine .arr (fun i => if i = j then o else B i) (fun i => if i = j then Sw else F i) (set_get h1) (Or.inl h2)
        (fun k' => ?_) (fun k' y hy => ?_) (fun k' b hb => ?_) (fun k1 k2 b hb1 hb2 => ?_)
      · rw [hss, hys]
        by_cases e : k' = j
        · simp [e]
        · simp only [if_neg e]; exact h5 k'
      · rw [hys] at hy
        by_cases e : k' = j
        · simp only [if_pos e] at hy ⊢; cases hy; exact hw.keep (hf.mono fun b hb e => hdis d h2 (e ▸ hb))
        · simp only [if_neg e] at hy ⊢
          exact (h6 k' y hy).keep (hf.mono fun b hb => (h7 k' b hb).2)
      · by_cases e : k' = j
        · rw [if_pos e] at hb; exact ⟨Or.inr hb, fun e => hdis d h2 (e ▸ hb)⟩
        · rw [if_neg e] at hb; exact ⟨Or.inl (h7 k' b hb).1, (h7 k' b hb).2⟩
      · by_cases e1 : k1 = j
        · by_cases e2 : k2 = j
          · rw [e1, e2]
          · rw [if_pos e1] at hb1; rw [if_neg e2] at hb2
            exact absurd hb1 (hdis b (h7 k2 b hb2).1)
        · by_cases e2 : k2 = j
          · rw [if_neg e1] at hb1; rw [if_pos e2] at hb2
            exact absurd hb2 (hdis b (h7 k1 b hb1).1)
          · rw [if_neg e1] at hb1; rw [if_neg e2] at hb2
            exact h8 _ _ b hb1 hb2
    · rintro b (hb | hb)
      · exact Or.inl hb
      · exact Or.inr (Or.inl hb)
    · rintro b (hb' | hb')
      · simpa using hb b hb'
      · simpa using hbw b hb'

theorem update_own {S Sw : Addr → Prop} {id : Int} {kvs : SMap J} {d o : Addr} {w : J} (ho : Owned N h S (.dict id kvs) d) (hw : Owned N h Sw w o)
    (hdis : ∀ b, S b → ¬ Sw b) (hb : ∀ b, S b → b < h.length) (hbw : ∀ b, Sw b → b < h.length) :
    ∃ h', updateH h d o = some h' ∧ ActPost N h S Sw d (.dict id (dictUpdate kvs w)) h' := by
  have same : ∀ ob, h[o]? = some ob → (∀ i m, ob ≠ .dict i m) → dictUpdate kvs w = kvs → (∃ h', updateH h d o = some h' ∧ ActPost N h S Sw d (.dict id (dictUpdate kvs w)) h') := by
    intro ob hob hne he
    rw [he]
    refine ⟨h, ?_, fun b o h1 _ => h1, Nat.le_refl _, S, ho, fun b hb => Or.inl hb, hb⟩
    cases ho with
    | leaf h1 => simp [J.leafObj] at h1
    | dict B F h1 =>
      simp only [updateH, h1, hob]
  cases hw with
  | leaf g1 g2 g3 =>
    refine same _ g2 (leaf_not_arr g1).2.1 ?_
    cases w <;> first | rfl | simp [J.leafObj] at g1
  | arr B' F' g1 => exact same _ g1 (by intro _ _ e; cases e) rfl
  | @dict _ id2 kvs2 _ rs2 B' F' g1 g2 g3 g4 g5 g6 g7 g8 =>
    cases ho with
    | leaf h1 => simp [J.leafObj] at h1
    | @dict S id kvs a rs B F h1 h2 h3 h4 h5 h6 h7 h8 =>
      have hf : Frame (fun b => b ≠ d) h (h.set d (.dict id (smMerge rs rs2))) := Frame.of_set h1 dict_not_leaf
      refine ⟨h.set d (.dict id (smMerge rs rs2)), by simp [updateH, h1, g1], frame_set h1 dict_not_leaf h2, by simp, fun b => S b ∨ Sw b, ?_, ?_, ?_⟩
      · simp only [dictUpdate]
        refine .dict (fun k => if (smGet kvs2 k).isSome then B' k else B k) (fun k => if (smGet kvs2 k).isSome then F' k else F k) (set_get h1) (Or.inl h2)
          (sorted_smMerge h3 _) (sorted_smMerge h4 _) (fun k => ?_) (fun k y hy => ?_) (fun k b hb => ?_) (fun k1 k2 b hb1 hb2 => ?_)
        · rw [smGet_smMerge h4 g4, smGet_smMerge h3 g3, g5, h5]
          cases smGet kvs2 k <;> simp
        · rw [smGet_smMerge h3 g3] at hy
          cases hk : smGet kvs2 k with
          | none =>
            rw [hk] at hy
            simp only [Option.none_or] at hy
            simp only [Option.isSome_none, Bool.false_eq_true, if_false]
            exact (h6 k y hy).keep (hf.mono fun b hb => (h7 k b hb).2)
          | some y' =>
            rw [hk] at hy
            simp only [Option.some_or, Option.some.injEq] at hy
            subst hy
            simp only [Option.isSome_some, if_true]
            exact (g6 k _ hk).keep (hf.mono fun b hb e => hdis d h2 (e ▸ (g7 k b hb).1))
        · split at hb
          · exact ⟨Or.inr (g7 k b hb).1, fun e => hdis d h2 (e ▸ (g7 k b hb).1)⟩
          · exact ⟨Or.inl (h7 k b hb).1, (h7 k b hb).2⟩
        · split at hb1 <;> split at hb2
          · exact g8 _ _ b hb1 hb2
          · exact absurd (g7 _ b hb1).1 (hdis b (h7 _ b hb2).1)
          · exact absurd (g7 _ b hb2).1 (hdis b (h7 _ b hb1).1)
          · exact h8 _ _ b hb1 hb2
      · rintro b (hb | hb)
        · exact Or.inl hb
        · exact Or.inr (Or.inl hb)
      · rintro b (hb' | hb')
        · simpa using hb b hb'
        · simpa using hbw b hb'

theorem updateDefault_own {S Sw : Addr → Prop} {id : Int} {kvs : SMap J} {d o : Addr} {w : J} (ho : Owned N h S (.dict id kvs) d) (hw : Owned N h Sw w o)
    (hdis : ∀ b, S b → ¬ Sw b) (hb : ∀ b, S b → b < h.length) (hbw : ∀ b, Sw b → b < h.length) :
    ∃ h', updateDefaultH h d o = some h' ∧ ActPost N h S Sw d (.dict id (dictUpdateDefault kvs w)) h' := by
  have same : ∀ ob, h[o]? = some ob → (∀ i m, ob ≠ .dict i m) → dictUpdateDefault kvs w = kvs → (∃ h', updateDefaultH h d o = some h' ∧ ActPost N h S Sw d (.dict id (dictUpdateDefault kvs w)) h') := by
    intro ob hob hne he
    rw [he]
    refine ⟨h, ?_, fun b o h1 _ => h1, Nat.le_refl _, S, ho, fun b hb => Or.inl hb, hb⟩
    cases ho with
    | leaf h1 => simp [J.leafObj] at h1
    | dict B F h1 =>
      simp only [updateDefaultH, h1, hob]
  cases hw with
  | leaf g1 g2 g3 =>
    refine same _ g2 (leaf_not_arr g1).2.1 ?_
    cases w <;> first | rfl | simp [J.leafObj] at g1
  | arr B' F' g1 => exact same _ g1 (by intro _ _ e; cases e) rfl
  | @dict _ id2 kvs2 _ rs2 B' F' g1 g2 g3 g4 g5 g6 g7 g8 =>
    cases ho with
    | leaf h1 => simp [J.leafObj] at h1
    | @dict S id kvs a rs B F h1 h2 h3 h4 h5 h6 h7 h8 =>
      have hf : Frame (fun b => b ≠ d) h (h.set d (.dict id (smMerge rs2 rs))) := Frame.of_set h1 dict_not_leaf
      refine ⟨h.set d (.dict id (smMerge rs2 rs)), by simp [updateDefaultH, h1, g1], frame_set h1 dict_not_leaf h2, by simp, fun b => S b ∨ Sw b, ?_, ?_, ?_⟩
      · simp only [dictUpdateDefault]
        refine .dict (fun k => if (smGet kvs k).isSome then B k else B' k) (fun k => if (smGet kvs k).isSome then F k else F' k) (set_get h1) (Or.inl h2)
          (sorted_smMerge g3 _) (sorted_smMerge g4 _) (fun k => ?_) (fun k y hy => ?_) (fun k b hb => ?_) (fun k1 k2 b hb1 hb2 => ?_)
        · rw [smGet_smMerge g4 h4, smGet_smMerge g3 h3, g5, h5]
          cases smGet kvs k <;> simp
        · rw [smGet_smMerge g3 h3] at hy
          cases hk : smGet kvs k with
          | none =>
            rw [hk] at hy
            simp only [Option.none_or] at hy
            simp only [Option.isSome_none, Bool.false_eq_true, if_false]
            exact (g6 k y hy).keep (hf.mono fun b hb e => hdis d h2 (e ▸ (g7 k b hb).1))
          | some y' =>
            rw [hk] at hy
            simp only [Option.some_or, Option.some.injEq] at hy
            subst hy
            simp only [Option.isSome_some, if_true]
            exact (h6 k _ hk).keep (hf.mono fun b hb => (h7 k b hb).2)
        · split at hb
          · exact ⟨Or.inl (h7 k b hb).1, (h7 k b hb).2⟩
          · exact ⟨Or.inr (g7 k b hb).1, fun e => hdis d h2 (e ▸ (g7 k b hb).1)⟩
        · split at hb1 <;> split at hb2
          · exact h8 _ _ b hb1 hb2
          · exact absurd (g7 _ b hb2).1 (hdis b (h7 _ b hb1).1)
          · exact absurd (g7 _ b hb1).1 (hdis b (h7 _ b hb2).1)
          · exact g8 _ _ b hb1 hb2
      · rintro b (hb | hb)
        · exact Or.inl hb
        · exact Or.inr (Or.inl hb)
      · rintro b (hb' | hb')
        · simpa using hb b hb'
        · simpa using hbw b hb'

/-- `Add`'s path does not lead through a null. -/
def NoNullOn (u : J) (path : List Bytes) : Prop := ∀ q r, path = q ++ r → r ≠ [] → u.pick (q.map Move.key) ≠ some .null

theorem add_own {Sw : Addr → Prop} {w : J} {o : Addr} : ∀ (path : List Bytes) (h : Heap) (S : Addr → Prop) (id : Int) (kvs : SMap J) (d : Addr),
    Owned N h S (.dict id kvs) d → Owned N h Sw w o → (∀ b, S b → ¬ Sw b) → (∀ b, S b → b < h.length) → (∀ b, Sw b → b < h.length) →
    h[nullAddr]? = some .null → (N ∨ NoNullOn (.dict id kvs) path) →
    ∃ h', addH h d (some o) path = some ((dictAdd kvs w path).2, h') ∧ ActPost N h S Sw d (.dict id (dictAdd kvs w path).1) h'
  | [], h, S, id, kvs, d, ho, hw, hdis, hb, hbw, hn, hc =>
    ⟨h, rfl, fun b o h1 _ => h1, Nat.le_refl _, S, ho, fun b hb => Or.inl hb, hb⟩
  | [k], h, S, id, kvs, d, ho, hw, hdis, hb, hbw, hn, hc => by
    obtain ⟨h', g1, g2⟩ := set_own k ho hw hdis hb hbw
    exact ⟨h', by simp [addH, g1, dictAdd], g2⟩
  | k :: k2 :: ks, h, S, id, kvs, d, ho, hw, hdis, hb, hbw, hn, hc => by
    cases ho with
    | leaf h1 => simp [J.leafObj] at h1
    | @dict S id kvs a rs B F h1 h2 h3 h4 h5 h6 h7 h8 =>
      have hdl : d < h.length := hb d h2
      have hnd : d ≠ nullAddr := by intro e; rw [e, hn] at h1; cases h1
      -- a level is created
      have fresh : (smGet kvs k = none ∨ smGet kvs k = some .null) → (smGet rs k = none ∨ smGet rs k = some (some nullAddr)) →
          ∃ h', addH h d (some o) (k :: k2 :: ks) = some ((dictAdd kvs w (k :: k2 :: ks)).2, h') ∧
            ActPost N h S Sw d (.dict id (dictAdd kvs w (k :: k2 :: ks)).1) h' := by
        intro hv hr
        have e1 : dictAdd kvs w (k :: k2 :: ks) = (smAdd kvs k (.dict 0 (dictAdd [] w (k2 :: ks)).1), (dictAdd [] w (k2 :: ks)).2) := by
          have : smGet (smAdd kvs k (J.dict 0 [])) k = some (.dict 0 []) := by rw [smGet_smAdd _ h3]; simp
          rcases hv with hv | hv <;> simp only [dictAdd, hv, this, smAdd_smAdd _ h3]
        have e2 : addH h d (some o) (k :: k2 :: ks) = addH ((h ++ [Obj.dict 0 []]).set d (.dict id (smAdd rs k (some h.length)))) h.length (some o) (k2 :: ks) := by
          rcases addH_step h1 (some o) k k2 ks with ⟨_, g⟩ | ⟨b, g1, g2, _⟩ | ⟨r, g1, g2, _⟩
          · exact g
          · exfalso
            rcases hr with hr | hr
            · rw [hr] at g1; cases g1
            · rw [hr] at g1; cases g1
              obtain ⟨i, m, g2⟩ := g2
              rw [hn] at g2; cases g2
          · exfalso
            rcases hr with hr | hr
            · rw [hr] at g1; cases g1
            · rw [hr] at g1; cases g1; exact g2 rfl
        rw [e1, e2]
        generalize hh1 : (h ++ [Obj.dict 0 []]).set d (.dict id (smAdd rs k (some h.length))) = hA
        have hne : h.length ≠ d := fun e => Nat.lt_irrefl _ (e ▸ hdl)
        have h1' : (h ++ [Obj.dict 0 []])[d]? = some (.dict id rs) := prefix_get (List.prefix_append _ _) h1
        have hfA : Frame (fun b => b ≠ d) h hA := by
          rw [← hh1]; exact (Frame.of_prefix (List.prefix_append _ _)).trans (Frame.of_set h1' dict_not_leaf)
        have hc' : hA[h.length]? = some (.dict 0 []) := by
          rw [← hh1, set_get_ne _ hne]; exact fresh_get
        have hdA : hA[d]? = some (.dict id (smAdd rs k (some h.length))) := by rw [← hh1]; exact set_get h1'
        have hlA : hA.length = h.length + 1 := by rw [← hh1]; simp
        have hoA : Owned N hA (fun b => b = h.length) (.dict 0 []) h.length :=
          .dict (fun _ => 0) (fun _ _ => False) hc' rfl List.Pairwise.nil List.Pairwise.nil (fun k => rfl) (fun k x hx => by simp [smGet] at hx)
            (fun _ _ hb => hb.elim) (fun _ _ _ hb => hb.elim)
        obtain ⟨h', g1, g2, g3, S', g4, g5, g6⟩ := add_own (k2 :: ks) hA (fun b => b = h.length) 0 [] h.length hoA
          (hw.keep (hfA.mono fun b hb e => hdis d h2 (e ▸ hb))) (fun b e hb => Nat.lt_irrefl _ (e ▸ hbw _ hb))
          (fun b e => by rw [hlA]; exact Nat.lt_succ_of_le (Nat.le_of_eq e)) (fun b hb => by rw [hlA]; exact Nat.lt_succ_of_lt (hbw b hb))
          (hfA _ _ hn (Or.inr trivial)) (Or.inr (fun q r he hr => by
            cases q with
            | nil => simp [J.pick]
            | cons q0 q => rw [List.map_cons, pick_key_dict]; simp [smGet]))
        have old : ∀ (b : Addr) o', h[b]? = some o' → b ≠ h.length := fun b o' hb e =>
          Nat.lt_irrefl _ (e ▸ (List.getElem?_eq_some_iff.1 hb).1)
        have hfB : Frame (fun b => b ≠ d) h h' := fun b o' k1 k2 => g2 b o' (hfA b o' k1 k2) (Or.inl (old b o' k1))
        have hnS : ∀ b, S' b → ¬ S b := by
          intro b hb' hs
          rcases g5 b hb' with e | e | e
          · exact Nat.lt_irrefl _ (e ▸ hb b hs)
          · exact hdis b hs e
          · rw [hlA] at e; exact Nat.lt_irrefl _ (Nat.lt_of_lt_of_le (Nat.lt_succ_of_lt (hb b hs)) e)
        refine ⟨h', g1, hfB.mono fun b hb e => hb (e ▸ h2), by omega, _, own_put h2 h3 h4 h5 h6 h7 h8
          (g2 d _ hdA (Or.inl (fun e => hne e.symm))) (hfB.mono fun b hb => hb.2.1) g4
          (fun b hb => ⟨fun e => hnS b hb (e ▸ h2), fun hs => absurd hs (hnS b hb)⟩), ?_, ?_⟩
        · rintro b (hb' | hb')
          · exact Or.inl hb'
          · rcases g5 b hb' with e | e | e
            · exact Or.inr (Or.inr (Nat.le_of_eq e.symm))
            · exact Or.inr (Or.inl e)
            · rw [hlA] at e; exact Or.inr (Or.inr (Nat.le_of_succ_le e))
        · rintro b (hb' | hb')
          · exact Nat.lt_of_lt_of_le (hb b hb') (by omega)
          · exact g6 b hb'
      cases hx : smGet kvs k with
      | none => exact fresh (Or.inl hx) (Or.inl (by rw [h5, hx]; rfl))
      | some x =>
        have hr : smGet rs k = some (some (B k)) := by rw [h5, hx]; rfl
        have hox := h6 k x hx
        -- something else is in the way
        have block : ∀ ob, h[B k]? = some ob → ob ≠ .null → (∀ i m, ob ≠ .dict i m) → dictAdd kvs w (k :: k2 :: ks) = (kvs, some .invalidDict) →
            ∃ h', addH h d (some o) (k :: k2 :: ks) = some ((dictAdd kvs w (k :: k2 :: ks)).2, h') ∧
              ActPost N h S Sw d (.dict id (dictAdd kvs w (k :: k2 :: ks)).1) h' := by
          intro ob hob hnn hnd he
          rw [he]
          refine ⟨h, ?_, fun b o h1 _ => h1, Nat.le_refl _, S, .dict B F h1 h2 h3 h4 h5 h6 h7 h8, fun b hb => Or.inl hb, hb⟩
          rcases addH_step h1 (some o) k k2 ks with ⟨g, _⟩ | ⟨b, g1, ⟨i, m, g2⟩, _⟩ | ⟨r, g1, g2, _, g⟩
          · exfalso
            rw [hr] at g
            rcases g with g | g
            · cases g
            · simp only [Option.some.injEq] at g; rw [g, hn] at hob; cases hob; exact hnn rfl
          · exfalso
            rw [hr] at g1; cases g1; rw [hob] at g2; cases g2; exact hnd _ _ rfl
          · exact g
        cases hox with
        | leaf j1 j2 j3 =>
          by_cases hxn : x = .null
          · subst hxn
            rcases hc with hN | hc
            · exact fresh (Or.inr hx) (Or.inr (by rw [hr, j3 hN rfl]))
            · have := hc [k] (k2 :: ks) rfl (by simp)
              rw [List.map_cons, pick_key_dict, hx] at this
              exact absurd rfl this
          · refine block _ j2 ?_ (leaf_not_arr j1).2.1 ?_
            · intro e; subst e
              cases x <;> simp [J.leafObj] at j1
              exact hxn rfl
            · cases x <;> first | (simp [J.leafObj] at j1; done) | (exact absurd rfl hxn) | (simp only [dictAdd, hx])
        | arr B' F' j1 => exact block _ j1 (by intro e; cases e) (by intro _ _ e; cases e) (by simp only [dictAdd, hx])
        | @dict _ id2 kvs2 _ rs2 B' F' j1 j2 j3 j4 j5 j6 j7 j8 =>
          have e1 : dictAdd kvs w (k :: k2 :: ks) = (smAdd kvs k (.dict id2 (dictAdd kvs2 w (k2 :: ks)).1), (dictAdd kvs2 w (k2 :: ks)).2) := by
            simp only [dictAdd, hx]
          have e2 : addH h d (some o) (k :: k2 :: ks) = addH h (B k) (some o) (k2 :: ks) := by
            rcases addH_step h1 (some o) k k2 ks with ⟨g, _⟩ | ⟨b, g1, _, g⟩ | ⟨r, g1, _, g2, _⟩
            · exfalso
              rw [hr] at g
              rcases g with g | g
              · cases g
              · simp only [Option.some.injEq] at g; rw [g, hn] at j1; cases j1
            · rw [hr] at g1; cases g1; exact g
            · rw [hr] at g1; cases g1; exact absurd ⟨_, _, _, rfl, j1⟩ g2
          rw [e1, e2]
          obtain ⟨h', g1, g2, g3, S', g4, g5, g6⟩ := add_own (k2 :: ks) h (F k) id2 kvs2 (B k) (.dict B' F' j1 j2 j3 j4 j5 j6 j7 j8) hw
            (fun b hb' => hdis b (h7 k b hb').1) (fun b hb' => hb b (h7 k b hb').1) hbw hn (hc.imp (fun x => x) fun hc q r he hr => by
              have := hc (k :: q) r (by rw [he]; rfl) hr
              rw [List.map_cons, pick_key_dict, hx] at this
              exact this)
          refine ⟨h', g1, g2.mono fun b hb' e => hb' (h7 k b e).1, g3, _, own_put h2 h3 h4 h5 h6 h7 h8
            (by rw [smAdd_same _ h4 _ _ hr]; exact g2 _ _ h1 (Or.inl fun e => (h7 k _ e).2 rfl)) (g2.mono fun b hb => hb.2.2) g4 (fun b hb' => ?_), ?_, ?_⟩
          · rcases g5 b hb' with e | e | e
            · exact ⟨(h7 k b e).2, fun _ => e⟩
            · exact ⟨fun e2 => hdis d h2 (e2 ▸ e), fun hs => absurd e (hdis b hs)⟩
            · exact ⟨fun e2 => Nat.lt_irrefl _ (Nat.lt_of_lt_of_le hdl (e2 ▸ e)), fun hs => absurd (Nat.lt_of_lt_of_le (hb b hs) e) (Nat.lt_irrefl _)⟩
          · rintro b (hb' | hb')
            · exact Or.inl hb'
            · exact (g5 b hb').imp (fun e => (h7 k b e).1) (fun x => x)
          · rintro b (hb' | hb')
            · exact Nat.lt_of_lt_of_le (hb b hb') g3
            · exact g6 b hb'

/-- A call that puts the operand into the receiver. -/
theorem act_own {S Sw : Addr → Prop} {u w : J} {d o : Addr} (a : Act) (ho : Owned N h S u d) (hw : Owned N h Sw w o)
    (hdis : ∀ b, S b → ¬ Sw b) (hb : ∀ b, S b → b < h.length) (hbw : ∀ b, Sw b → b < h.length) (hn : h[nullAddr]? = some .null)
    (hc : N ∨ ∀ path, a = .add path → NoNullOn u path) :
    match a.onValue u w with
    | none => a.onMemory h d o = none
    | some (out, u') => ∃ h', a.onMemory h d o = some (out, h') ∧ ActPost N h S Sw d u' h' := by
  have hobj : (∃ id kvs rs, u = .dict id kvs ∧ h[d]? = some (.dict id rs)) ∨ (∃ xs rs, u = .arr xs ∧ h[d]? = some (.arr rs)) ∨
      (∃ ob, u.leafObj = some ob ∧ h[d]? = some ob) := by
    cases ho with
    | leaf h1 h2 => exact Or.inr (Or.inr ⟨_, h1, h2⟩)
    | arr B F h1 => exact Or.inr (Or.inl ⟨_, _, rfl, h1⟩)
    | dict B F h1 => exact Or.inl ⟨_, _, _, rfl, h1⟩
  rcases hobj with ⟨id, kvs, rs, rfl, hod⟩ | ⟨xs, rs, rfl, hod⟩ | ⟨ob, hl, hod⟩
  · cases a with
    | set k =>
      obtain ⟨h', g1, g2⟩ := set_own k ho hw hdis hb hbw
      exact ⟨h', by simp [Act.onMemory, g1], g2⟩
    | setAt i => simp [Act.onValue, Act.onMemory, setAtH, hod]
    | append => simp [Act.onValue, Act.onMemory, arrAddH, hod]
    | add path =>
      obtain ⟨h', g1, g2⟩ := add_own path h S id kvs d ho hw hdis hb hbw hn (hc.imp (fun x => x) fun hc => hc path rfl)
      exact ⟨h', by simp [Act.onMemory, hod, g1], g2⟩
    | update =>
      obtain ⟨h', g1, g2⟩ := update_own ho hw hdis hb hbw
      exact ⟨h', by simp [Act.onMemory, g1], g2⟩
    | updateDefault =>
      obtain ⟨h', g1, g2⟩ := updateDefault_own ho hw hdis hb hbw
      exact ⟨h', by simp [Act.onMemory, g1], g2⟩
  · cases a with
    | set k => simp [Act.onValue, Act.onMemory, setH, hod]
    | setAt i =>
      obtain ⟨rs', g1, g2, g3⟩ := arr_own i.toNat ho hw hdis hb hbw
      rw [hod] at g1; cases g1
      simp only [Act.onValue, arrSetAt]
      by_cases hi : 0 ≤ i ∧ i < xs.length
      · rw [if_pos hi]
        refine ⟨h.set d (.arr (rs.set i.toNat (some o))), by simp only [Act.onMemory, setAtH, hod, g2, if_pos hi, Option.map_some], g3 _ _ (fun j => ?_) (fun j => ?_)⟩
        · rw [List.getElem?_set]
          by_cases e : i.toNat = j
          · subst e; rw [if_pos rfl, if_pos rfl, if_pos (by omega)]
          · rw [if_neg e, if_neg (fun e2 => e e2.symm)]
        · rw [List.getElem?_set]
          by_cases e : i.toNat = j
          · subst e; rw [if_pos rfl, if_pos rfl, if_pos (by omega)]
          · rw [if_neg e, if_neg (fun e2 => e e2.symm)]
      · rw [if_neg hi]
        simp [Act.onMemory, setAtH, hod, g2, hi]
    | append =>
      obtain ⟨rs', g1, g2, g3⟩ := arr_own xs.length ho hw hdis hb hbw
      rw [hod] at g1; cases g1
      have app : ∀ {α} (l : List α) (x : α) (j : Nat), (l ++ [x])[j]? = if j = l.length then some x else l[j]? := by
        intro α l x j
        by_cases e : j = l.length
        · subst e; simp
        · rw [if_neg e]
          by_cases e2 : j < l.length
          · rw [List.getElem?_append_left e2]
          · rw [List.getElem?_eq_none (l := l) (by omega), List.getElem?_eq_none]; simp; omega
      exact ⟨h.set d (.arr (rs ++ [some o])), by simp [Act.onMemory, arrAddH, hod], g3 _ _ (fun j => app _ _ _) (fun j => by rw [app, g2])⟩
    | add path => simp [Act.onValue, Act.onMemory, hod]
    | update => simp [Act.onValue, Act.onMemory, updateH, hod]
    | updateDefault => simp [Act.onValue, Act.onMemory, updateDefaultH, hod]
  · have h0 : a.onValue u w = none := by
      cases a <;> cases u <;> first | rfl | simp [J.leafObj] at hl
    rw [h0]
    obtain ⟨l1, l2, _⟩ := leaf_not_arr hl
    cases ob with
    | arr rs => exact absurd rfl (l1 _)
    | dict i rs => exact absurd rfl (l2 _ _)
    | _ => cases a <;> simp [Act.onMemory, setH, setAtH, arrAddH, updateH, updateDefaultH, hod]

end Jsonutils
