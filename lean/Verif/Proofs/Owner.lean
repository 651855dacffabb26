import Verif.Spec.Owner
import Verif.Proofs.HeapRead
import Verif.Proofs.HeapEdit

namespace Jsonutils

/-- The object of a scalar. -/
def J.leafObj : J → Option Obj
  | .null => some .null
  | .bool b => some (.bool b)
  | .int n => some (.int n)
  | .float x bit => some (.float x bit)
  | .str s => some (.str s)
  | _ => none

theorem leafObj_leaf {v : J} {o : Obj} (h : v.leafObj = some o) : o.IsLeaf := by
  cases v <;> simp [J.leafObj] at h <;> subst h <;> trivial

/-- `v` is spelt at `a`, every container of it lies in `S` and occurs once.  If `N`, its nulls are the shared one. -/
inductive Owned (N : Prop) (h : Heap) : (Addr → Prop) → J → Addr → Prop where
  | leaf {S : Addr → Prop} {v : J} {a : Addr} {o : Obj} : v.leafObj = some o → h[a]? = some o → (N → v = .null → a = nullAddr) → Owned N h S v a
  | arr {S : Addr → Prop} {xs : List J} {a : Addr} {rs : List Ref} (B : Nat → Addr) (F : Nat → Addr → Prop) : h[a]? = some (.arr rs) → S a →
      (∀ i : Nat, rs[i]? = (xs[i]?).map fun _ => some (B i)) → (∀ (i : Nat) x, xs[i]? = some x → Owned N h (F i) x (B i)) →
      (∀ i b, F i b → S b ∧ b ≠ a) → (∀ i j b, F i b → F j b → i = j) → Owned N h S (.arr xs) a
  | dict {S : Addr → Prop} {id : Int} {kvs : SMap J} {a : Addr} {rs : SMap Ref} (B : Bytes → Addr) (F : Bytes → Addr → Prop) :
      h[a]? = some (.dict id rs) → S a → SMap.Sorted kvs → SMap.Sorted rs →
      (∀ k, smGet rs k = (smGet kvs k).map fun _ => some (B k)) → (∀ k x, smGet kvs k = some x → Owned N h (F k) x (B k)) →
      (∀ k b, F k b → S b ∧ b ≠ a) → (∀ k k' b, F k b → F k' b → k = k') → Owned N h S (.dict id kvs) a

variable {N : Prop} {h : Heap}

theorem Owned.mono {S S' : Addr → Prop} {v : J} {a : Addr} (ho : Owned N h S v a) (hs : ∀ b, S b → S' b) : Owned N h S' v a := by
  cases ho with
  | leaf h1 h2 h3 => exact .leaf h1 h2 h3
  | arr B F h1 h2 h3 h4 h5 h6 => exact .arr B F h1 (hs _ h2) h3 h4 (fun i b hb => ⟨hs _ (h5 i b hb).1, (h5 i b hb).2⟩) h6
  | dict B F h1 h2 h3 h4 h5 h6 h7 h8 => exact .dict B F h1 (hs _ h2) h3 h4 h5 h6 (fun i b hb => ⟨hs _ (h7 i b hb).1, (h7 i b hb).2⟩) h8

/-- The objects in `S` and the scalars are as they were. -/
def Frame (S : Addr → Prop) (h h' : Heap) : Prop := ∀ (b : Addr) o, h[b]? = some o → S b ∨ o.IsLeaf → h'[b]? = some o

theorem Frame.mono {S S' : Addr → Prop} {h' : Heap} (hf : Frame S h h') (hs : ∀ b, S' b → S b) : Frame S' h h' :=
  fun b o h1 h2 => hf b o h1 (h2.imp (hs b) id)

theorem Frame.trans {S : Addr → Prop} {h' h'' : Heap} (h1 : Frame S h h') (h2 : Frame S h' h'') : Frame S h h'' :=
  fun b o g1 g2 => h2 b o (h1 b o g1 g2) g2

theorem Frame.of_prefix {S : Addr → Prop} {h' : Heap} (hp : h <+: h') : Frame S h h' := fun _ _ g1 _ => prefix_get hp g1

theorem Frame.of_set {d : Addr} {o o' : Obj} (ho : h[d]? = some o) (hl : ¬ o.IsLeaf) : Frame (fun b => b ≠ d) h (h.set d o') := by
  intro b o2 g1 g2
  have hb : b ≠ d := by
    rcases g2 with g | g
    · exact g
    · intro e; subst e; rw [ho] at g1; cases g1; exact hl g
  rw [set_get_ne _ hb]; exact g1

theorem Owned.keep {h' : Heap} {S : Addr → Prop} {v : J} {a : Addr} (ho : Owned N h S v a) : Frame S h h' → Owned N h' S v a := by
  induction ho with
  | leaf h1 h2 h3 => intro hf; exact .leaf h1 (hf _ _ h2 (Or.inr (leafObj_leaf h1))) h3
  | arr B F h1 h2 h3 _ h5 h6 ih =>
    intro hf
    exact .arr B F (hf _ _ h1 (Or.inl h2)) h2 h3 (fun i x hx => ih i x hx (hf.mono fun b hb => (h5 i b hb).1)) h5 h6
  | dict B F h1 h2 h3 h4 h5 _ h7 h8 ih =>
    intro hf
    exact .dict B F (hf _ _ h1 (Or.inl h2)) h2 h3 h4 h5 (fun i x hx => ih i x hx (hf.mono fun b hb => (h7 i b hb).1)) h7 h8

theorem smGet_mapkey {α β} (m : SMap α) (g : Bytes → β) (k : Bytes) : smGet (m.map fun e => (e.1, g e.1)) k = (smGet m k).map fun _ => g k := by
  induction m with
  | nil => rfl
  | cons e m ih =>
    simp only [List.map_cons, smGet]
    split
    · rename_i he; simp [he]
    · exact ih

theorem rs_eq {kvs : SMap J} {rs : SMap Ref} {B : Bytes → Addr} (h3 : SMap.Sorted kvs) (h4 : SMap.Sorted rs)
    (h5 : ∀ k, smGet rs k = (smGet kvs k).map fun _ => some (B k)) : rs = kvs.map fun e => (e.1, some (B e.1)) := by
  refine sorted_ext h4 (sorted_of_keys (m := kvs) (by simp) h3) fun k => ?_
  rw [h5, smGet_mapkey kvs (fun k => some (B k))]

theorem Owned.seen {S : Addr → Prop} {v : J} {a : Addr} (ho : Owned N h S v a) : J.Seen h v a := by
  induction ho with
  | @leaf S v a o h1 h2 _ =>
    cases v <;> simp only [J.leafObj, Option.some.injEq, reduceCtorEq] at h1 <;> subst h1 <;> simp only [J.Seen, J.At] <;> exact ⟨trivial, h2⟩
  | @arr S xs a rs B F h1 _ h3 _ _ _ ih =>
    simp only [J.Seen, J.At]
    refine ⟨trivial, rs, h1, ?_⟩
    have key : ∀ (xs : List J) (rs : List Ref) (B : Nat → Addr), (∀ i : Nat, rs[i]? = (xs[i]?).map fun _ => some (B i)) →
        (∀ (i : Nat) x, xs[i]? = some x → J.Seen h x (B i)) → J.Ats h (fun _ => True) xs rs := by
      intro xs
      induction xs with
      | nil => intro rs B hr _; simp only [J.Ats]; simpa using hr 0
      | cons x xs ih2 =>
        intro rs B hr hx
        simp only [J.Ats]
        cases rs with
        | nil => have := hr 0; simp at this
        | cons r rs =>
          have h0 := hr 0
          simp only [List.getElem?_cons_zero, Option.map_some, Option.some.injEq] at h0
          subst h0
          exact ⟨B 0, rs, rfl, hx 0 x rfl, ih2 rs (fun i => B (i + 1)) (fun i => by simpa using hr (i + 1)) fun i y hy => hx (i + 1) y (by simpa using hy)⟩
    exact key xs rs B h3 ih
  | @dict S id kvs a rs B F h1 _ h3 h4 h5 _ _ _ ih =>
    simp only [J.Seen, J.At]
    refine ⟨trivial, rs, h1, ?_⟩
    rw [rs_eq h3 h4 h5]
    have key : ∀ (l : SMap J), (∀ k x, (k, x) ∈ l → J.Seen h x (B k)) → J.Atf h (fun _ => True) l (l.map fun e => (e.1, some (B e.1))) := by
      intro l
      induction l with
      | nil => intro _; simp [J.Atf]
      | cons e l ih2 =>
        obtain ⟨k, x⟩ := e
        intro hx
        simp only [J.Atf, List.map_cons]
        exact ⟨B k, _, rfl, hx k x (by simp), ih2 fun k y hy => hx k y (by simp [hy])⟩
    exact key kvs fun k x hx => ih k x (smGet_of_mem h3 hx)

/-! ### Positions -/

theorem pick_append : ∀ (p q : List Move) (v : J), v.pick (p ++ q) = (v.pick p).bind fun u => u.pick q
  | [], q, v => by simp [J.pick]
  | .key k :: p, q, v => by
    simp only [List.cons_append, J.pick]
    cases v.get [k] with
    | ok w => exact pick_append p q w
    | err e => rfl
    | diverge => rfl
  | .elem i :: p, q, v => by
    simp only [List.cons_append, J.pick]
    cases v.getAt i [] with
    | ok w => exact pick_append p q w
    | err e => rfl
    | diverge => rfl

theorem pickH_append : ∀ (p q : List Move) (a : Addr), pickH h a (p ++ q) = (pickH h a p).bind fun d => pickH h d q
  | [], q, v => by simp [pickH]
  | .key k :: p, q, a => by
    simp only [List.cons_append, pickH]
    cases getH h (some a) [k] with
    | ok w =>
      cases w with
      | some b => exact pickH_append p q b
      | none => rfl
    | err e => rfl
    | panic => rfl
  | .elem i :: p, q, a => by
    simp only [List.cons_append, pickH]
    cases getAtH h (some a) i [] with
    | ok w =>
      cases w with
      | some b => exact pickH_append p q b
      | none => rfl
    | err e => rfl
    | panic => rfl

theorem pick_key_dict {id : Int} {kvs : SMap J} {k : Bytes} {p : List Move} : (J.dict id kvs).pick (.key k :: p) = (smGet kvs k).bind fun x => x.pick p := by
  simp only [J.pick, J.get, dictGet, getLoop]
  cases smGet kvs k <;> rfl

theorem pick_key_other {v : J} {k : Bytes} {p : List Move} (hv : ∀ id kvs, v ≠ .dict id kvs) : v.pick (.key k :: p) = none := by
  simp only [J.pick]
  cases v <;> first | rfl | exact absurd rfl (hv _ _)

theorem pick_elem_arr {xs : List J} {i : Nat} {p : List Move} : (J.arr xs).pick (.elem i :: p) = (xs[i]?).bind fun x => x.pick p := by
  have hi : ¬ ((i : Int) < 0) := by omega
  simp only [J.pick, J.getAt, arrGetAt, if_neg hi]
  cases hx : xs[i]? with
  | none =>
    have : ¬ (0 ≤ (i : Int) ∧ (i : Int) < xs.length) := by
      rw [List.getElem?_eq_none_iff] at hx; omega
    rw [if_neg this]; rfl
  | some x =>
    have : 0 ≤ (i : Int) ∧ (i : Int) < xs.length := by
      have := (List.getElem?_eq_some_iff.1 hx).1; omega
    rw [if_pos this]; simp [hx]

theorem pick_elem_other {v : J} {i : Nat} {p : List Move} (hv : ∀ xs, v ≠ .arr xs) : v.pick (.elem i :: p) = none := by
  simp only [J.pick]
  cases v <;> first | rfl | exact absurd rfl (hv _)

theorem pickH_key_dict {a : Addr} {id : Int} {rs : SMap Ref} {k : Bytes} {p : List Move} (ho : h[a]? = some (.dict id rs)) :
    pickH h a (.key k :: p) = (smGet rs k).bind fun r => r.bind fun b => pickH h b p := by
  simp only [pickH, getH, ho, getLoopH]
  cases smGet rs k with
  | none => rfl
  | some r => cases r <;> rfl

theorem pickH_key_other {a : Addr} {o : Obj} {k : Bytes} {p : List Move} (ho : h[a]? = some o) (hd : ∀ id rs, o ≠ .dict id rs) : pickH h a (.key k :: p) = none := by
  simp only [pickH, getH, ho]

theorem pickH_elem_arr {a : Addr} {rs : List Ref} {i : Nat} {p : List Move} (ho : h[a]? = some (.arr rs)) :
    pickH h a (.elem i :: p) = (rs[i]?).bind fun r => r.bind fun b => pickH h b p := by
  have hi : ¬ ((i : Int) < 0) := by omega
  simp only [pickH, getAtH, ho, arrGetAtH, if_neg hi]
  cases hx : rs[i]? with
  | none =>
    have : ¬ (0 ≤ (i : Int) ∧ (i : Int) < rs.length) := by
      rw [List.getElem?_eq_none_iff] at hx; omega
    rw [if_neg this]; rfl
  | some r =>
    have : 0 ≤ (i : Int) ∧ (i : Int) < rs.length := by
      have := (List.getElem?_eq_some_iff.1 hx).1; omega
    rw [if_pos this]
    cases r <;> simp [hx]

theorem pickH_elem_other {a : Addr} {o : Obj} {i : Nat} {p : List Move} (ho : h[a]? = some o) (hd : ∀ rs, o ≠ .arr rs) : pickH h a (.elem i :: p) = none := by
  simp only [pickH, getAtH, ho]
  cases o with
  | arr rs => exact absurd rfl (hd _)
  | dict id rs => simp only [getH, ho]
  | _ => rfl

theorem leaf_not_arr {v : J} {o : Obj} (hl : v.leafObj = some o) : (∀ rs, o ≠ .arr rs) ∧ (∀ id rs, o ≠ .dict id rs) ∧ (∀ xs, v ≠ .arr xs) ∧ (∀ id kvs, v ≠ .dict id kvs) := by
  cases v <;> simp [J.leafObj] at hl <;> subst hl <;> simp

/-- The object at a position, and how the whole changes when it changes. -/
theorem Owned.focus : ∀ (p : List Move) (S : Addr → Prop) (v : J) (a : Addr), Owned N h S v a →
    match v.pick p with
    | none => pickH h a p = none
    | some u => ∃ d S1 S2, pickH h a p = some d ∧ Owned N h S1 u d ∧ (∀ b, S1 b → S b) ∧ (∀ b, S2 b → S b) ∧ (∀ b, S1 b → ¬ S2 b) ∧
        ∀ h' u' S1', Frame S2 h h' → (∀ b, S1' b → ¬ S2 b) → Owned N h' S1' u' d → Owned N h' (fun b => S1' b ∨ S2 b) (J.putAt u' p v) a
  | [], S, v, a, ho => by
    simp only [J.pick]
    exact ⟨a, S, fun _ => False, rfl, ho, fun _ hb => hb, fun _ hb => hb.elim, fun _ _ hb => hb, fun h' u' S1' _ _ ho' => ho'.mono fun _ hb => Or.inl hb⟩
  | .key k :: p, S, v, a, ho => by
    cases ho with
    | leaf h1 h2 h3 =>
      obtain ⟨_, g2, _, g4⟩ := leaf_not_arr h1
      rw [pick_key_other g4]; exact pickH_key_other h2 g2
    | arr B F h1 h2 h3 h4 h5 h6 =>
      rw [pick_key_other (by intro _ _ e; cases e)]; exact pickH_key_other h1 (by intro _ _ e; cases e)
    | @dict S id kvs a rs B F h1 h2 h3 h4 h5 h6 h7 h8 =>
      rw [pick_key_dict, pickH_key_dict h1, h5]
      cases hx : smGet kvs k with
      | none => simp
      | some x =>
        simp only [Option.bind_some, Option.map_some]
        have ih := Owned.focus p (F k) x (B k) (h6 k x hx)
        cases hu : x.pick p with
        | none => rw [hu] at ih; exact ih
        | some u =>
          rw [hu] at ih
          obtain ⟨d, S1, S2, g1, g2, g3, g4, g5, g6⟩ := ih
          refine ⟨d, S1, fun b => S2 b ∨ b = a ∨ ∃ k', k' ≠ k ∧ F k' b, g1, g2, fun b hb => (h7 k b (g3 b hb)).1, ?_, ?_, ?_⟩
          · rintro b (hb | rfl | ⟨k', _, hb⟩)
            · exact (h7 k b (g4 b hb)).1
            · exact h2
            · exact (h7 k' b hb).1
          · rintro b hb (hb2 | rfl | ⟨k', hk', hb2⟩)
            · exact g5 b hb hb2
            · exact (h7 k b (g3 b hb)).2 rfl
            · exact hk' (h8 k' k b hb2 (g3 b hb))
          · intro h' u' S1' hf hd' ho'
            have inner := g6 h' u' S1' (hf.mono fun b hb => Or.inl hb) (fun b hb hb2 => hd' b hb (Or.inl hb2)) ho'
            simp only [J.putAt, hx]
            refine .dict B (fun k' => if k' = k then (fun b => S1' b ∨ S2 b) else F k') (hf _ _ h1 (Or.inl (Or.inr (Or.inl rfl)))) (Or.inr (Or.inr (Or.inl rfl)))
              (sorted_smAdd h3 k _) h4 (fun k' => ?_) (fun k' x' hx' => ?_) (fun k' b hb => ?_) (fun k1 k2 b hb1 hb2 => ?_)
            · rw [h5, smGet_smAdd _ h3]
              split
              · rename_i e; subst e; rw [hx]; rfl
              · rfl
            · rw [smGet_smAdd _ h3] at hx'
              split at hx'
              · rename_i e; subst e; cases hx'; rw [if_pos rfl]; exact inner
              · rename_i e
                rw [if_neg e]
                exact (h6 k' x' hx').keep (hf.mono fun b hb => Or.inr (Or.inr ⟨k', e, hb⟩))
            · by_cases e : k' = k
              · rw [if_pos e] at hb
                rcases hb with hb | hb
                · refine ⟨Or.inl hb, fun e2 => hd' b hb (Or.inr (Or.inl e2))⟩
                · exact ⟨Or.inr (Or.inl hb), (h7 k b (g4 b hb)).2⟩
              · rw [if_neg e] at hb
                exact ⟨Or.inr (Or.inr (Or.inr ⟨k', e, hb⟩)), (h7 k' b hb).2⟩
            · by_cases e1 : k1 = k
              · by_cases e2 : k2 = k
                · rw [e1, e2]
                · rw [if_pos e1] at hb1; rw [if_neg e2] at hb2
                  rcases hb1 with hb1 | hb1
                  · exact absurd (Or.inr (Or.inr ⟨k2, e2, hb2⟩)) (hd' b hb1)
                  · rw [e1]; exact h8 _ _ b (g4 b hb1) hb2
              · by_cases e2 : k2 = k
                · rw [if_neg e1] at hb1; rw [if_pos e2] at hb2
                  rcases hb2 with hb2 | hb2
                  · exact absurd (Or.inr (Or.inr ⟨k1, e1, hb1⟩)) (hd' b hb2)
                  · rw [e2]; exact h8 _ _ b hb1 (g4 b hb2)
                · rw [if_neg e1] at hb1; rw [if_neg e2] at hb2
                  exact h8 _ _ b hb1 hb2
  | .elem k :: p, S, v, a, ho => by
    cases ho with
    | leaf h1 h2 h3 =>
      obtain ⟨g2, _, g4, _⟩ := leaf_not_arr h1
      rw [pick_elem_other g4]; exact pickH_elem_other h2 g2
    | dict B F h1 h2 h3 h4 h5 h6 h7 h8 =>
      rw [pick_elem_other (by intro _ e; cases e)]; exact pickH_elem_other h1 (by intro _ e; cases e)
    | @arr S xs a rs B F h1 h2 h5 h6 h7 h8 =>
      rw [pick_elem_arr, pickH_elem_arr h1, h5]
      cases hx : xs[k]? with
      | none => simp
      | some x =>
        simp only [Option.bind_some, Option.map_some]
        have ih := Owned.focus p (F k) x (B k) (h6 k x hx)
        cases hu : x.pick p with
        | none => rw [hu] at ih; exact ih
        | some u =>
          rw [hu] at ih
          obtain ⟨d, S1, S2, g1, g2, g3, g4, g5, g6⟩ := ih
          refine ⟨d, S1, fun b => S2 b ∨ b = a ∨ ∃ k', k' ≠ k ∧ F k' b, g1, g2, fun b hb => (h7 k b (g3 b hb)).1, ?_, ?_, ?_⟩
          · rintro b (hb | rfl | ⟨k', _, hb⟩)
            · exact (h7 k b (g4 b hb)).1
            · exact h2
            · exact (h7 k' b hb).1
          · rintro b hb (hb2 | rfl | ⟨k', hk', hb2⟩)
            · exact g5 b hb hb2
            · exact (h7 k b (g3 b hb)).2 rfl
            · exact hk' (h8 k' k b hb2 (g3 b hb))
          · intro h' u' S1' hf hd' ho'
            have inner := g6 h' u' S1' (hf.mono fun b hb => Or.inl hb) (fun b hb hb2 => hd' b hb (Or.inl hb2)) ho'
            simp only [J.putAt, hx]
            have hget : ∀ i : Nat, (xs.set k (J.putAt u' p x))[i]? = if i = k then some (J.putAt u' p x) else xs[i]? := by
              intro i
              rw [List.getElem?_set]
              have hl := (List.getElem?_eq_some_iff.1 hx).1
              by_cases e : k = i
              · subst e; simp [hl]
              · rw [if_neg e, if_neg (fun e2 => e e2.symm)]
            refine .arr B (fun k' => if k' = k then (fun b => S1' b ∨ S2 b) else F k') (hf _ _ h1 (Or.inl (Or.inr (Or.inl rfl)))) (Or.inr (Or.inr (Or.inl rfl)))
              (fun k' => ?_) (fun k' x' hx' => ?_) (fun k' b hb => ?_) (fun k1 k2 b hb1 hb2 => ?_)
            · rw [h5, hget]
              split
              · rename_i e; subst e; rw [hx]; rfl
              · rfl
            · rw [hget] at hx'
              split at hx'
              · rename_i e; subst e; cases hx'; rw [if_pos rfl]; exact inner
              · rename_i e
                rw [if_neg e]
                exact (h6 k' x' hx').keep (hf.mono fun b hb => Or.inr (Or.inr ⟨k', e, hb⟩))
            · by_cases e : k' = k
              · rw [if_pos e] at hb
                rcases hb with hb | hb
                · refine ⟨Or.inl hb, fun e2 => hd' b hb (Or.inr (Or.inl e2))⟩
                · exact ⟨Or.inr (Or.inl hb), (h7 k b (g4 b hb)).2⟩
              · rw [if_neg e] at hb
                exact ⟨Or.inr (Or.inr (Or.inr ⟨k', e, hb⟩)), (h7 k' b hb).2⟩
            · by_cases e1 : k1 = k
              · by_cases e2 : k2 = k
                · rw [e1, e2]
                · rw [if_pos e1] at hb1; rw [if_neg e2] at hb2
                  rcases hb1 with hb1 | hb1
                  · exact absurd (Or.inr (Or.inr ⟨k2, e2, hb2⟩)) (hd' b hb1)
                  · rw [e1]; exact h8 _ _ b (g4 b hb1) hb2
              · by_cases e2 : k2 = k
                · rw [if_neg e1] at hb1; rw [if_pos e2] at hb2
                  rcases hb2 with hb2 | hb2
                  · exact absurd (Or.inr (Or.inr ⟨k1, e1, hb1⟩)) (hd' b hb2)
                  · rw [e2]; exact h8 _ _ b hb1 (g4 b hb2)
                · rw [if_neg e1] at hb1; rw [if_neg e2] at hb2
                  exact h8 _ _ b hb1 hb2

end Jsonutils
