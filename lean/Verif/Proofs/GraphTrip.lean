import Verif.Proofs.GraphMar

/-! # Pointer graphs through `Marshal` and `Unmarshal` -/

namespace Jsonutils

/-! ### Events -/

mutual
theorem events_reread : ∀ j : J, j.reread.events = j.events
  | .dict id kvs => by
    simp only [J.reread, J.events, events_rereadf kvs]
    by_cases h : 0 < id <;> simp [h]
  | .arr xs => by simp only [J.reread, J.events, events_rereads xs]
  | .float x bit => by
    simp only [J.reread, J.events]
    unfold numberOf
    repeat' (first | split | rfl)
  | .null => rfl
  | .bool _ => rfl
  | .int _ => rfl
  | .str _ => rfl
  | .ptr _ => rfl
theorem events_rereads : ∀ xs : List J, J.eventss (J.rereads xs) = J.eventss xs
  | [] => rfl
  | x :: xs => by simp only [J.rereads, J.eventss, events_reread x, events_rereads xs]
theorem events_rereadf : ∀ xs : List (Bytes × J), J.eventsf (J.rereadf xs) = J.eventsf xs
  | [] => rfl
  | (k, x) :: xs => by simp only [J.rereadf, J.eventsf, events_reread x, events_rereadf xs]
end

theorem events_seen (text : Bool) (j : J) : (j.seen text).events = j.events := by
  cases text
  · rfl
  · exact events_reread j

mutual
theorem defIds_nodeIds : ∀ j : J, (defIds j.events).Perm j.nodeIds
  | .dict id kvs => by
    simp only [J.events, J.nodeIds, defIds_append]
    have h1 : defIds (if 0 < id then [NodeEv.defn id] else []) = if 0 < id then [id] else [] := by split <;> simp [defIds]
    rw [h1]
    exact List.perm_append_comm.trans ((defIds_nodeIdsf kvs).append_right _)
  | .arr xs => defIds_nodeIdss xs
  | .float _ _ => .nil
  | .null => .nil
  | .bool _ => .nil
  | .int _ => .nil
  | .str _ => .nil
  | .ptr _ => .nil
theorem defIds_nodeIdss : ∀ xs : List J, (defIds (J.eventss xs)).Perm (J.nodeIdss xs)
  | [] => .nil
  | x :: xs => by simp only [J.eventss, J.nodeIdss, defIds_append]; exact (defIds_nodeIds x).append (defIds_nodeIdss xs)
theorem defIds_nodeIdsf : ∀ xs : List (Bytes × J), (defIds (J.eventsf xs)).Perm (J.nodeIdsf xs)
  | [] => .nil
  | (k, x) :: xs => by simp only [J.eventsf, J.nodeIdsf, defIds_append]; exact (defIds_nodeIds x).append (defIds_nodeIdsf xs)
end

mutual
theorem use_ptrIds (id : Int) : ∀ j : J, .use id ∈ j.events ↔ id ∈ j.ptrIds
  | .dict i kvs => by
    simp only [J.events, J.ptrIds, List.mem_append, use_ptrIdsf id kvs]
    constructor
    · rintro (h | h)
      · split at h <;> simp at h
      · exact h
    · exact Or.inr
  | .arr xs => use_ptrIdss id xs
  | .float _ _ => by simp [J.events, J.ptrIds]
  | .null => by simp [J.events, J.ptrIds]
  | .bool _ => by simp [J.events, J.ptrIds]
  | .int _ => by simp [J.events, J.ptrIds]
  | .str _ => by simp [J.events, J.ptrIds]
  | .ptr _ => by simp [J.events, J.ptrIds]
theorem use_ptrIdss (id : Int) : ∀ xs : List J, .use id ∈ J.eventss xs ↔ id ∈ J.ptrIdss xs
  | [] => by simp [J.eventss, J.ptrIdss]
  | x :: xs => by simp only [J.eventss, J.ptrIdss, List.mem_append, use_ptrIds id x, use_ptrIdss id xs]
theorem use_ptrIdsf (id : Int) : ∀ xs : List (Bytes × J), .use id ∈ J.eventsf xs ↔ id ∈ J.ptrIdsf xs
  | [] => by simp [J.eventsf, J.ptrIdsf]
  | (k, x) :: xs => by simp only [J.eventsf, J.ptrIdsf, List.mem_append, use_ptrIds id x, use_ptrIdsf id xs]
end

theorem defn_nodeIds (id : Int) (j : J) : .defn id ∈ j.events ↔ id ∈ j.nodeIds := by
  rw [← mem_defIds]; exact (defIds_nodeIds j).mem_iff

section
variable {P : UEnv} {h : List GV} {Θ : Nat → Ty} {ord : SMap Bytes → List (Bytes × Bytes)} {oe text : Bool} {pick : List Nat → Nat}

theorem tidy_graphClean (hP : P.RoundTrips text) (hG : GraphTidy P h Θ oe text) {g : GV} {t : Ty} (ht : g.HasTy P Θ t) (hy : g.Tidy P h oe text t) : GraphClean h g ∧ GraphOk h g := by
  obtain ⟨a, b, c⟩ := tidy_clean hP g t ht hy
  have key : ∀ x ∈ h, x.Clean h ∧ x.Finite h ∧ x.DepsOk := by
    intro x hx
    obtain ⟨i, hi⟩ := List.mem_iff_getElem?.1 hx
    obtain ⟨q1, _, q3⟩ := hG i x hi
    exact tidy_clean hP x _ q1 q3
  exact ⟨⟨a, fun x hx => (key x hx).1⟩, b, c, fun x hx => (key x hx).2⟩

/-- A pointer to a struct or map gives a dictionary. -/
theorem marshal_ptr_dict (hord : ∀ dep, (ord dep).Perm dep) (hpick : ∀ l, l ≠ [] → pick l ∈ l) (hOk : P.Ok) (hP : P.RoundTrips text) (hG : GraphTidy P h Θ oe text)
    {a : Nat} {g : GV} (ha : h[a]? = some g) (hn : g.IsNode) {n : Nat} {j : J} (hm : marshal ord pick oe h n (.ptr a) = some j) : ∃ id kvs, j = .dict id kvs ∧ 0 ≤ id := by
  unfold marshal at hm
  cases hx : gmar ord oe h n (.ptr a) .init none with
  | none => rw [hx] at hm; cases hm
  | some r =>
    obtain ⟨s, o⟩ := r
    rw [hx] at hm
    rw [gmar_gd] at hx
    simp only [GV.mar, marshalPtr, MSess.init, traceFind] at hx
    cases hb : gd ord oe h n ⟨0 + 1, [] ++ [⟨0 + 1, a, 1⟩]⟩ none a with
    | none => rw [hb] at hx; cases hx
    | some r2 =>
      obtain ⟨s2, o2⟩ := r2
      rw [hb] at hx
      simp only at hx
      cases hx
      obtain ⟨hd, _⟩ := gd_desc hord hpick hOk hP hG n _ none a _ _ rfl hb g ha
      cases o2 with
      | none =>
        obtain ⟨q1, tv, q2, q3⟩ := hd.none rfl
        cases q2 <;> first | exact (show False from hn).elim | exact absurd q3.2 (by simp [optEmpty])
      | some m =>
        obtain ⟨kvs, rfl⟩ := hd.node hn m rfl
        cases hm
        refine ⟨_, _, rfl, ?_⟩
        split <;> omega

/-- A struct, map or slice gives a dictionary without id, or an array. -/
theorem marshal_root (hord : ∀ dep, (ord dep).Perm dep) (hpick : ∀ l, l ≠ [] → pick l ∈ l) (hOk : P.Ok) (hP : P.RoundTrips text) (hG : GraphTidy P h Θ oe text)
    {g : GV} {t : Ty} (hR : g.Root) (ht : g.HasTy P Θ t) (hr : t.RoundTrips text) (hy : g.Tidy P h oe text t) {n : Nat} {j : J} (hm : marshal ord pick oe h n g = some j) :
    (∃ kvs, j = .dict 0 kvs) ∨ ∃ xs, j = .arr xs := by
  unfold marshal at hm
  cases hx : gmar ord oe h n g .init none with
  | none => rw [hx] at hm; cases hm
  | some r =>
    obtain ⟨s, o⟩ := r
    rw [hx] at hm
    rw [gmar_gd] at hx
    have hd := mar_desc hord hpick hOk hP hG (gd_desc hord hpick hOk hP hG n) g t _ _ _ _ rfl hr ht hy hx
    cases o with
    | none =>
      obtain ⟨q1, tv, q2, q3⟩ := hd.none rfl
      cases q2 <;> first | exact (show False from hR).elim | exact absurd q3.2 (by simp [optEmpty])
    | some m =>
      cases hm
      have node : g.IsNode → ∃ kvs, m.finish s.live pick = .dict 0 kvs := by
        intro hn
        obtain ⟨kvs, rfl⟩ := hd.node hn m rfl
        exact ⟨_, rfl⟩
      cases g with
      | map _ => exact Or.inl (node trivial)
      | struct _ => exact Or.inl (node trivial)
      | seq xs =>
        right
        simp only [GV.mar, optEmpty, Bool.false_eq_true, false_and, and_false, if_false] at hx
        cases hy : GV.mars ord oe (gd ord oe h n) xs .init with
        | none => rw [hy] at hx; cases hx
        | some r =>
          rw [hy] at hx
          simp only [forceStr, optForce, Bool.false_eq_true, if_false] at hx
          cases hx
          exact ⟨_, rfl⟩
      | _ => exact (show False from hR).elim

/-- Of a pointer and of what it points to, the same is known at its location. -/
theorem holds_at {F : Nat → Prop} {M : List HV} {D : Int → Option Loc} {j : J} {t : Ty} {l : Loc} (hj : (∃ kvs, j = .dict 0 kvs) ∨ ∃ xs, j = .arr xs)
    (hh : j.Holds P F M D (.ptr t) (.ptr l)) : ∃ c, memGet M l = some c ∧ j.Holds P F M D t c := by
  rcases hj with ⟨kvs, rfl⟩ | ⟨xs, rfl⟩
  · rw [J.Holds] at hh
    obtain ⟨t', c', o, k1, _, k3⟩ := hh
    cases k1 with
    | here hn => exact absurd rfl (hn t)
    | there q1 q2 q3 => exact ⟨_, q2, by rw [J.Holds]; exact ⟨_, _, _, q3, fun h => absurd h (by omega), k3⟩⟩
  · rw [J.Holds] at hh
    obtain ⟨t', c', o, k1, k3⟩ := hh
    cases k1 with
    | here hn => exact absurd rfl (hn t)
    | there q1 q2 q3 => exact ⟨_, q2, by rw [J.Holds]; exact ⟨_, _, _, q3, k3⟩⟩

/-- The trip of a pointer to a struct or map. -/
theorem trip_ptr (hord : ∀ dep, (ord dep).Perm dep) (hpick : ∀ l, l ≠ [] → pick l ∈ l) (hOk : P.Ok) (hP : P.RoundTrips text) (hG : GraphTidy P h Θ oe text)
    {a : Nat} {g : GV} (ha : h[a]? = some g) (hn : g.IsNode) {n : Nat} {j : J} (hm : marshal ord pick oe h n (.ptr a) = some j)
    {l : Loc} {M : List HV} (hz : memGet M l = some (P.hzero (Θ a))) :
    (NoForward j.events → ∃ c new R, (j.seen text).hunmarshal P [] (Θ a) l M = some (memSet M l c ++ new, none) ∧ Looks P h Θ (memSet M l c ++ new) R ∧ R a l) ∧
    (¬ NoForward j.events → (j.seen text).hunmarshal P [] (Θ a) l M = none) := by
  obtain ⟨g1, g2, g3⟩ := hG a g ha
  have hT : g.Target := by cases g <;> first | trivial | exact (show False from hn).elim
  have ht : (GV.ptr a).HasTy P Θ (.ptr (Θ a)) := by rw [GV.HasTy]
  have hy : (GV.ptr a).Tidy P h oe text (.ptr (Θ a)) := by rw [GV.Tidy]; exact ⟨g, ha, hT⟩
  have hr : (Ty.ptr (Θ a)).RoundTrips text := by
    refine ⟨g2, ?_⟩
    have := node_type hn g1
    cases hθ : Θ a <;> simp [hθ, Ty.isStructOrMap] at this <;> first | trivial | (rw [hθ] at g2; exact (show False from g2).elim)
  obtain ⟨hc, _⟩ := tidy_graphClean hP hG ht hy
  obtain ⟨hr1, hr2⟩ := marshal_refs hord hpick hc hm
  obtain ⟨id, kvs, rfl, hid⟩ := marshal_ptr_dict hord hpick hOk hP hG ha hn hm
  have hne : oe = true → ¬ (GV.ptr a).IsEmpty h none := by
    rintro _ ⟨tv, q2, q3⟩
    cases q2 with
    | ptr e1 e2 =>
      rw [ha] at e1; cases e1
      cases e2 <;> first | exact (show False from hn).elim | exact absurd q3.2 (by simp [optEmpty])
  obtain ⟨Dg, hd⟩ := marshal_desc hord hpick hOk hP hG ht hr hy hne hm
  have hev := events_seen text (.dict id kvs)
  have hnp : ∀ i, (J.dict id kvs).seen text ≠ .ptr i := by rw [seen_dict_id text hid]; simp
  have hroot : ((J.dict id kvs).seen text).Rootable := by rw [seen_dict_id text hid]; trivial
  have := root_exact hOk.1 hroot (Or.inr (desc_fits _ _ _ hd)) hz (by rw [hev]; exact (defIds_nodeIds _).nodup_iff.2 hr2)
  rw [hev] at this
  refine ⟨fun hnf => ?_, this.2⟩
  obtain ⟨c, new, D, h1, h2, h3⟩ := this.1 hnf
  refine ⟨c, new, FromDoc P h Θ Dg (fun b => M.length ≤ b ∨ b = l.base) (memSet M l c ++ new) D ((J.dict id kvs).seen text).events, h1, looks_fromDoc hOk fun i hi => ?_, _, hnp, fun _ h => h, hd, h2⟩
  refine defs_read _ _ _ _ (fun _ h => h) hd h2 i ?_
  rw [hev] at hi ⊢
  exact (defn_nodeIds _ _).2 (hr1 _ ((use_ptrIds _ _).1 hi))

/-- The trip of a value. -/
theorem trip_val (hord : ∀ dep, (ord dep).Perm dep) (hpick : ∀ l, l ≠ [] → pick l ∈ l) (hOk : P.Ok) (hP : P.RoundTrips text) (hG : GraphTidy P h Θ oe text)
    {g : GV} {t : Ty} (hR : g.Root) (ht : g.HasTy P Θ t) (hr : t.RoundTrips text) (hy : g.Tidy P h oe text t) {n : Nat} {j : J} (hm : marshal ord pick oe h n g = some j)
    {l : Loc} {M : List HV} (hz : memGet M l = some (P.hzero t)) :
    (NoForward j.events → ∃ c new R, (j.seen text).hunmarshal P [] t l M = some (memSet M l c ++ new, none) ∧ Looks P h Θ (memSet M l c ++ new) R ∧ g.Shown P Θ R (memSet M l c ++ new) t c) ∧
    (¬ NoForward j.events → (j.seen text).hunmarshal P [] t l M = none) := by
  obtain ⟨hc, _⟩ := tidy_graphClean hP hG ht hy
  obtain ⟨hr1, hr2⟩ := marshal_refs hord hpick hc hm
  have hne : oe = true → ¬ g.IsEmpty h none := by
    rintro _ ⟨tv, q2, q3⟩
    cases q2 <;> first | exact (show False from hR).elim | exact absurd q3.2 (by simp [optEmpty])
  obtain ⟨Dg, hd⟩ := marshal_desc hord hpick hOk hP hG ht hr hy hne hm
  have hev := events_seen text j
  have hj : (∃ kvs, j.seen text = .dict 0 kvs) ∨ ∃ xs, j.seen text = .arr xs := by
    rcases marshal_root hord hpick hOk hP hG hR ht hr hy hm with ⟨kvs, rfl⟩ | ⟨xs, rfl⟩
    · exact Or.inl ⟨_, seen_dict text kvs⟩
    · exact Or.inr ⟨_, seen_arr text xs⟩
  have hroot : (j.seen text).Rootable := by rcases hj with ⟨kvs, hj⟩ | ⟨xs, hj⟩ <;> rw [hj] <;> trivial
  have := root_exact hOk.1 hroot (Or.inl (desc_fits _ _ _ hd)) hz (by rw [hev]; exact (defIds_nodeIds _).nodup_iff.2 hr2)
  rw [hev] at this
  refine ⟨fun hnf => ?_, this.2⟩
  obtain ⟨c, new, D, h1, h2, h3⟩ := this.1 hnf
  obtain ⟨c', m1, m2⟩ := holds_at hj h2
  rw [memGet_result hz] at m1
  cases m1
  have hE : ∀ id, .use id ∈ (j.seen text).events → ∃ l', D id = some l' ∧ FromDoc P h Θ Dg (fun b => M.length ≤ b ∨ b = l.base) (memSet M l c ++ new) D (j.seen text).events (Dg id) l' := by
    intro i hi
    refine defs_read _ _ _ _ (fun _ h => h) hd m2 i ?_
    rw [hev] at hi ⊢
    exact (defn_nodeIds _ _).2 (hr1 _ ((use_ptrIds _ _).1 hi))
  exact ⟨c, new, FromDoc P h Θ Dg (fun b => M.length ≤ b ∨ b = l.base) (memSet M l c ++ new) D (j.seen text).events, h1, looks_fromDoc hOk hE,
    shown hOk hE _ _ _ _ (fun _ h => h) hd m2⟩

end
end Jsonutils
