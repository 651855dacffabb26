import Verif.Spec.MarshalMap
import Verif.Proofs.MarshalBare
import Verif.Proofs.MarshalDet
import Verif.Proofs.ParseMore

namespace Jsonutils

/-- Two sorted lists with the same entries are equal if no two entries tie. -/
theorem goSorted_eq : ∀ (l m : List (MapKey × GV)), l.Perm m → (l.map (·.1.sortText)).Nodup →
    l.Pairwise (fun a b => blt b.1.sortText a.1.sortText = false) → m.Pairwise (fun a b => blt b.1.sortText a.1.sortText = false) → l = m
  | [], m, hp, _, _, _ => by rw [List.nil_perm.1 hp]
  | a :: l, [], hp, _, _, _ => by have := hp.length_eq; simp at this
  | a :: l, b :: m, hp, hn, hl, hm => by
    have hab : a = b := by
      have hb : b ∈ a :: l := hp.mem_iff.2 (by simp)
      have ha : a ∈ b :: m := hp.mem_iff.1 (by simp)
      rcases List.mem_cons.1 hb with h | h
      · exact h.symm
      rcases List.mem_cons.1 ha with h' | h'
      · exact h'
      have h1 := (List.pairwise_cons.1 hl).1 b h
      have h2 := (List.pairwise_cons.1 hm).1 a h'
      rcases blt_total a.1.sortText b.1.sortText with h3 | h3 | h3
      · rw [h3] at h2; cases h2
      · exact absurd (List.mem_map.2 ⟨b, h, h3.symm⟩) (List.nodup_cons.1 hn).1
      · rw [h3] at h1; cases h1
    subst hab
    rw [goSorted_eq l m (List.perm_cons a |>.1 hp) (List.nodup_cons.1 hn).2 (List.pairwise_cons.1 hl).2 (List.pairwise_cons.1 hm).2]

theorem goSort_unique {sort sort' : List (MapKey × GV) → List (MapKey × GV)} (hs : GoSort sort) (hs' : GoSort sort') {l m : List (MapKey × GV)}
    (hp : l.Perm m) (hn : (l.map (·.1.sortText)).Nodup) : sort l = sort' m := by
  refine goSorted_eq _ _ ((hs l).1.trans (hp.trans (hs' m).1.symm)) ?_ (hs l).2 (hs' m).2
  exact (((hs l).1.map (·.1.sortText)).nodup_iff).2 hn

theorem walkm_eq (sort : List (MapKey × GV) → List (MapKey × GV)) (l : List (MapKey × GU)) :
    GU.walkm sort l = l.map fun e => (e.1, e.2.walk sort) := by
  induction l with
  | nil => rfl
  | cons e l ih => obtain ⟨k, x⟩ := e; simp only [GU.walkm, List.map_cons, ih]

theorem walks_eq (sort : List (MapKey × GV) → List (MapKey × GV)) (l : List GU) :
    GU.walks sort l = l.map fun e => e.walk sort := by
  induction l with
  | nil => rfl
  | cons e l ih => simp only [GU.walks, List.map_cons, ih]

theorem sortText_raw {k : MapKey} (h : k.IsText) : k.sortText = k.raw := by
  cases k <;> first | rfl | cases h

theorem textKeys_nodup {sort : List (MapKey × GV) → List (MapKey × GV)} {kvs : List (MapKey × GU)} (h : ∀ e ∈ kvs, e.1.IsText)
    (hn : (kvs.map (·.1.raw)).Nodup) : ((GU.walkm sort kvs).map (·.1.sortText)).Nodup := by
  rw [walkm_eq, List.map_map]
  have : kvs.map ((fun e : MapKey × GV => e.1.sortText) ∘ fun e => (e.1, e.2.walk sort)) = kvs.map (·.1.raw) :=
    List.map_congr_left fun e he => sortText_raw (h e he)
  rw [this]; exact hn

section
variable {sort sort' : List (MapKey × GV) → List (MapKey × GV)}

mutual
theorem walk_same (hs : GoSort sort) (hs' : GoSort sort') : ∀ {u u' : GU}, u.Same u' → u.TextKeys → u.walk sort = u'.walk sort'
  | _, _, .leaf _, _ => by simp only [GU.walk]
  | _, _, .jsonPtr _, _ => by simp only [GU.walk]
  | _, _, .seq h, ht => by simp only [GU.walk]; rw [walks_same hs hs' h (by simpa only [GU.TextKeys] using ht)]
  | .map xs, .map ys, .map (zs := zs) h hp, ht => by
    rw [GU.TextKeys] at ht
    simp only [GU.walk]
    have h1 := walkm_same hs hs' h ht.2.2
    have h2 : (GU.walkm sort xs).Perm (GU.walkm sort' ys) := by
      rw [h1, walkm_eq, walkm_eq]; exact hp.map _
    rw [goSort_unique hs hs' h2 (textKeys_nodup ht.1 ht.2.1)]
  | _, _, .struct h, ht => by simp only [GU.walk]; rw [walkf_same hs hs' h (by simpa only [GU.TextKeys] using ht)]
  | _, _, .iface h, ht => by simp only [GU.walk]; rw [walk_same hs hs' h (by simpa only [GU.TextKeys] using ht)]
  | _, _, .ptr _, _ => by simp only [GU.walk]
  | _, _, .shared _, _ => by simp only [GU.walk]
theorem walks_same (hs : GoSort sort) (hs' : GoSort sort') : ∀ {u u' : List GU}, GU.Sames u u' → GU.TextKeyss u → GU.walks sort u = GU.walks sort' u'
  | _, _, .nil, _ => rfl
  | _, _, .cons h1 h2, ht => by
    rw [GU.TextKeyss] at ht
    simp only [GU.walks]; rw [walk_same hs hs' h1 ht.1, walks_same hs hs' h2 ht.2]
theorem walkm_same (hs : GoSort sort) (hs' : GoSort sort') : ∀ {u u' : List (MapKey × GU)}, GU.Samem u u' → GU.TextKeysm u → GU.walkm sort u = GU.walkm sort' u'
  | _, _, .nil, _ => rfl
  | _, _, .cons h1 h2, ht => by
    rw [GU.TextKeysm] at ht
    simp only [GU.walkm]; rw [walk_same hs hs' h1 ht.1, walkm_same hs hs' h2 ht.2]
theorem walkf_same (hs : GoSort sort) (hs' : GoSort sort') : ∀ {u u' : List (FInfo × GU)}, GU.Samef u u' → GU.TextKeysf u → GU.walkf sort u = GU.walkf sort' u'
  | _, _, .nil, _ => rfl
  | _, _, .cons h1 h2, ht => by
    rw [GU.TextKeysf] at ht
    simp only [GU.walkf]; rw [walk_same hs hs' h1 ht.1, walkf_same hs hs' h2 ht.2]
end
end

/-! ### What a map becomes -/

theorem lastValue_cons {α : Type} (p : Bytes × α) (ps : List (Bytes × α)) (k : Bytes) :
    lastValue (p :: ps) k = (lastValue ps k).or (if p.1 = k then some p.2 else none) := by
  unfold lastValue
  rw [List.reverse_cons, List.find?_append]
  cases hf : List.find? (fun p => decide (p.1 = k)) ps.reverse with
  | some q => simp
  | none =>
    simp only [Option.none_or, Option.map_none, List.find?_cons, List.find?_nil]
    by_cases hk : p.1 = k <;> simp [hk]

section
variable {ord : SMap Bytes → List (Bytes × Bytes)} {oe : Bool}

theorem marm_last : ∀ (ts : List (Bytes × TV)) (ys : List (Bytes × J)), TV.marm ord oe ts = some ys → ∀ k,
    (lastValue ys k = none ↔ ∀ t, (k, t) ∈ ts → oe = true ∧ t.Empty none) ∧
    ∀ v, lastValue ys k = some v → ∃ pre t post, ts = pre ++ (k, t) :: post ∧ t.mar ord oe none = some (some v) ∧
      ∀ t', (k, t') ∈ post → oe = true ∧ t'.Empty none
  | [], ys, h, k => by
    simp only [TV.marm] at h; cases h
    simp [lastValue]
  | (k', x) :: ts, ys, h, k => by
    simp only [TV.marm] at h
    split at h
    · cases h
    · rename_i o hx
      split at h
      · cases h
      · rename_i ys' hr
        obtain ⟨ih1, ih2⟩ := marm_last ts ys' hr k
        have he := mar_none_iff x none o hx
        cases o with
        | none =>
          cases h
          have he := he.1 rfl
          refine ⟨ih1.trans ⟨fun g t ht => ?_, fun g t ht => g t (List.mem_cons_of_mem _ ht)⟩, fun v hv => ?_⟩
          · rcases List.mem_cons.1 ht with ht | ht
            · cases ht; exact he
            · exact g t ht
          · obtain ⟨pre, t, post, e1, e2, e3⟩ := ih2 v hv
            exact ⟨(k', x) :: pre, t, post, by rw [e1]; rfl, e2, e3⟩
        | some y =>
          cases h
          rw [lastValue_cons]
          cases hl : lastValue ys' k with
          | some w =>
            refine ⟨⟨fun g => by simp at g, fun g => ?_⟩, fun v hv => ?_⟩
            · have := ih1.2 fun t ht => g t (List.mem_cons_of_mem _ ht)
              rw [this] at hl; cases hl
            · simp only [Option.some_or, Option.some.injEq] at hv
              subst hv
              obtain ⟨pre, t, post, e1, e2, e3⟩ := ih2 w hl
              exact ⟨(k', x) :: pre, t, post, by rw [e1]; rfl, e2, e3⟩
          | none =>
            have hn := ih1.1 hl
            rw [Option.none_or]
            by_cases hk : k' = k
            · subst hk
              simp only [if_true]
              refine ⟨⟨fun g => (by cases g), fun g => ?_⟩, fun v hv => ?_⟩
              · have := he.2 (g x (by simp)); cases this
              · cases hv
                exact ⟨[], x, ts, rfl, hx, hn⟩
            · simp only [if_neg hk]
              refine ⟨⟨fun _ t ht => ?_, fun _ => trivial⟩, fun v hv => by cases hv⟩
              rcases List.mem_cons.1 ht with ht | ht
              · cases ht; exact absurd rfl hk
              · exact hn t ht

theorem unfm_mem {h : List GV} : ∀ {ts : List (Bytes × TV)} {xs : List (Bytes × GV)}, Unfm h xs ts → ∀ {k : Bytes},
    (∀ x, (k, x) ∈ xs → ∃ t, (k, t) ∈ ts ∧ Unf h x t) ∧ (∀ t, (k, t) ∈ ts → ∃ x, (k, x) ∈ xs ∧ Unf h x t)
  | [], xs, hu, k => by cases hu; simp
  | (k', t) :: ts, xs, hu, k => by
    cases hu with
    | cons h1 h2 =>
      obtain ⟨a, b⟩ := unfm_mem h2 (k := k)
      refine ⟨fun x hx => ?_, fun t' ht => ?_⟩
      · rcases List.mem_cons.1 hx with hx | hx
        · cases hx; exact ⟨t, by simp, h1⟩
        · obtain ⟨t', c, d⟩ := a x hx; exact ⟨t', by simp [c], d⟩
      · rcases List.mem_cons.1 ht with ht | ht
        · cases ht; exact ⟨_, List.mem_cons_self .., h1⟩
        · obtain ⟨x, c, d⟩ := b t' ht; exact ⟨x, List.mem_cons_of_mem _ c, d⟩

theorem unfm_split {h : List GV} {k : Bytes} {t : TV} : ∀ {pre post : List (Bytes × TV)} {xs : List (Bytes × GV)}, Unfm h xs (pre ++ (k, t) :: post) →
    ∃ pre' x post', xs = pre' ++ (k, x) :: post' ∧ Unf h x t ∧ Unfm h post' post
  | [], post, xs, hu => by
    cases hu with
    | cons h1 h2 => exact ⟨[], _, _, rfl, h1, h2⟩
  | p :: pre, post, xs, hu => by
    obtain ⟨k', t'⟩ := p
    cases hu with
    | cons h1 h2 =>
      obtain ⟨pre', x, post', e, e1, e2⟩ := unfm_split h2
      exact ⟨_ :: pre', x, post', by rw [e]; rfl, e1, e2⟩

/-- A map with its entries in the order of marshalling: of several entries with the same key, the last one that is not
dropped is in the document. -/
theorem marshal_map {pick : List Nat → Nat} {h : List GV} {kvs : List (Bytes × GV)} (hac : Acyclic h (.map kvs)) {n : Nat} {j : J}
    (hm : marshal ord pick oe h n (.map kvs) = some j) :
    ∃ m, j = .dict 0 m ∧ SMap.Sorted m ∧ ∀ k,
      (smGet m k = none ↔ ∀ x, (k, x) ∈ kvs → oe = true ∧ x.IsEmpty h none) ∧
      ∀ v, smGet m k = some v → ∃ pre x post, kvs = pre ++ (k, x) :: post ∧ (∃ n', marshal ord pick oe h n' x = some v) ∧
        ¬ (oe = true ∧ x.IsEmpty h none) ∧ ∀ x', (k, x') ∈ post → oe = true ∧ x'.IsEmpty h none := by
  obtain ⟨t, hu⟩ := hac
  obtain ⟨o, ho, hj⟩ := marshal_tree hu hm
  cases hu with
  | map hs =>
    rename_i ts
    simp only [TV.mar] at ho
    rw [if_neg (by simp [optEmpty])] at ho
    split at ho
    · cases ho
    · rename_i ys hys
      cases ho
      unfold forceJ at hj
      rw [if_neg (by simp [optForce])] at hj
      subst hj
      refine ⟨pairsDict ys, rfl, pairsDict_sorted ys, fun k => ?_⟩
      have hg : smGet (pairsDict ys) k = lastValue ys k := by
        unfold pairsDict
        rw [smGet_foldl_smAdd ys [] sorted_nil k]; simp [smGet]
      rw [hg]
      obtain ⟨h1, h2⟩ := marm_last ts ys hys k
      have hem : ∀ {x t}, Unf h x t → (GV.IsEmpty h x none ↔ t.Empty none) := fun {x t} hx =>
        ⟨fun ⟨t', b, c⟩ => by rw [unf_fun b hx] at c; exact c, fun c => ⟨t, hx, c⟩⟩
      refine ⟨h1.trans ⟨fun g x hx => ?_, fun g t ht => ?_⟩, fun v hv => ?_⟩
      · obtain ⟨t, c, d⟩ := (unfm_mem hs).1 x hx
        rw [hem d]; exact g t c
      · obtain ⟨x, c, d⟩ := (unfm_mem hs).2 t ht
        rw [← hem d]; exact g x c
      · obtain ⟨pre, t, post, e1, e2, e3⟩ := h2 v hv
        rw [e1] at hs
        obtain ⟨pre', x, post', f1, f2, f3⟩ := unfm_split hs
        refine ⟨pre', x, post', f1, tree_marshal f2 e2, ?_, fun x' hx' => ?_⟩
        · rw [hem f2, ← mar_none_iff t none _ e2]; simp
        · obtain ⟨t', c, d⟩ := (unfm_mem f3).1 x' hx'
          rw [hem d]; exact e3 t' c
end

end Jsonutils
