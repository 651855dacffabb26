import Verif.Spec.Nested
import Verif.Proofs.Params
import Verif.Proofs.Dict

namespace Jsonutils

/-- What is at a path. -/
def J.leafAt : J → List Bytes → Option J
  | .dict _ kvs, k :: ks => match smGet kvs k with
    | some n => n.leafAt ks
    | none => none
  | .dict _ _, [] => none
  | v, [] => some v
  | _, _ :: _ => none
termination_by _ ks => ks.length

/-- A fresh chain of dictionaries. -/
def nestQ : List Bytes → J → J
  | [], v => v
  | k :: ks, v => .dict 0 [(k, nestQ ks v)]

/-- Put `v` at the path, unless something is in the way. -/
def J.putQ (v : J) : J → List Bytes → J
  | .dict id kvs, k :: ks => .dict id (smAdd kvs k (match smGet kvs k with
    | some n => J.putQ v n ks
    | none => nestQ ks v))
  | b, _ => b
termination_by _ ks => ks.length

/-- Nothing is in the way. -/
def J.freeQ : J → List Bytes → Bool
  | .dict _ kvs, k :: ks => match smGet kvs k with
    | some n => n.freeQ ks
    | none => true
  | _, _ => false
termination_by _ ks => ks.length

/-- The leaves of results: a text, or an array of texts. -/
def J.leafQ (v : J) : Prop := (∃ s, v = .str s) ∨ ∃ ss, ss ≠ [] ∧ v = .arr (ss.map .str)

/-- Documents that come up: sorted dictionaries, not empty below the root, of leaves. -/
inductive J.TreeQ : J → Prop
  | leaf {v : J} : v.leafQ → TreeQ v
  | dict {id : Int} {kvs : SMap J} : SMap.Sorted kvs → kvs ≠ [] → (∀ e ∈ kvs, e.2.TreeQ) → TreeQ (.dict id kvs)

theorem leafQ_notDict {v : J} (h : v.leafQ) : ¬ v.IsDict := by
  rcases h with ⟨s, rfl⟩ | ⟨ss, _, rfl⟩ <;> exact id

theorem leafAt_leaf {v : J} (h : ¬ v.IsDict) (q : List Bytes) : v.leafAt q = if q = [] then some v else none := by
  cases q <;> cases v <;> simp_all [J.leafAt, J.IsDict]

theorem putQ_leaf {b v : J} (h : ¬ b.IsDict) (p : List Bytes) : J.putQ v b p = b := by
  cases p <;> cases b <;> simp_all [J.putQ, J.IsDict]

theorem freeQ_leaf {b : J} (h : ¬ b.IsDict) (p : List Bytes) : b.freeQ p = false := by
  cases p <;> cases b <;> simp_all [J.freeQ, J.IsDict]

theorem leafAt_nest {v : J} (hv : ¬ v.IsDict) : ∀ (p q : List Bytes), (nestQ p v).leafAt q = if q = p then some v else none
  | [], q => by rw [nestQ, leafAt_leaf hv]
  | k :: ks, [] => by simp [nestQ, J.leafAt]
  | k :: ks, k' :: q => by
    simp only [nestQ, J.leafAt, smGet]
    by_cases hk : k = k'
    · subst hk; simp [leafAt_nest hv ks q]
    · simp [hk, Ne.symm hk]

theorem leafAt_put {v : J} (hv : ¬ v.IsDict) : ∀ (p q : List Bytes) (b : J), b.TreeQ ∨ b = .dict 0 [] →
    (J.putQ v b p).leafAt q = if q = p ∧ b.freeQ p = true then some v else b.leafAt q
  | [], q, b, hb => by
    have h1 : J.putQ v b [] = b := by cases b <;> simp [J.putQ]
    have h2 : b.freeQ [] = false := by cases b <;> simp [J.freeQ]
    rw [h1, h2]; simp
  | k :: ks, q, b, hb => by
    by_cases hd : b.IsDict
    · obtain ⟨id, kvs, rfl⟩ : ∃ id kvs, b = .dict id kvs := by cases b <;> first | exact ⟨_, _, rfl⟩ | exact absurd hd id
      have hs : SMap.Sorted kvs ∧ ∀ e ∈ kvs, e.2.TreeQ := by
        rcases hb with hb | hb
        · cases hb with
          | leaf h => exact absurd hd (leafQ_notDict h)
          | dict h1 _ h3 => exact ⟨h1, h3⟩
        · cases hb; exact ⟨sorted_nil, by simp⟩
      cases q with
      | nil => simp [J.putQ, J.leafAt]
      | cons k' q =>
        simp only [J.putQ, J.leafAt, J.freeQ]
        rw [smGet_smAdd _ hs.1]
        by_cases hk : k' = k
        · subst hk
          simp only [if_true]
          cases hg : smGet kvs k' with
          | none =>
            simp only [leafAt_nest hv, and_true, List.cons.injEq, true_and]
          | some n =>
            have hn : n.TreeQ := hs.2 _ (smGet_mem hg)
            simp only [leafAt_put hv ks q n (Or.inl hn), List.cons.injEq, true_and]
        · rw [if_neg hk]
          simp [hk]
    · rw [putQ_leaf hd, freeQ_leaf hd]; simp
termination_by p => p.length

theorem tree_nest {v : J} (hv : v.leafQ) : ∀ p, (nestQ p v).TreeQ
  | [] => .leaf hv
  | k :: ks => .dict (by simp [SMap.Sorted]) (by simp) (by simp [tree_nest hv ks])

theorem smAdd_ne_nil {α : Type} (m : SMap α) (k : Bytes) (v : α) : smAdd m k v ≠ [] := by
  cases m with
  | nil => simp [smAdd]
  | cons e m => simp only [smAdd]; split <;> (try split) <;> simp

theorem tree_put {v : J} (hv : v.leafQ) : ∀ (p : List Bytes) (b : J), b.TreeQ ∨ (b = .dict 0 [] ∧ p ≠ []) → (J.putQ v b p).TreeQ
  | [], b, hb => by
    rcases hb with hb | hb
    · have h1 : J.putQ v b [] = b := by cases b <;> simp [J.putQ]
      rw [h1]; exact hb
    · exact absurd rfl hb.2
  | k :: ks, b, hb => by
    by_cases hd : b.IsDict
    · obtain ⟨id, kvs, rfl⟩ : ∃ id kvs, b = .dict id kvs := by cases b <;> first | exact ⟨_, _, rfl⟩ | exact absurd hd id
      have hs : SMap.Sorted kvs ∧ ∀ e ∈ kvs, e.2.TreeQ := by
        rcases hb with hb | hb
        · cases hb with
          | leaf h => exact absurd hd (leafQ_notDict h)
          | dict h1 _ h3 => exact ⟨h1, h3⟩
        · cases hb.1; exact ⟨sorted_nil, by simp⟩
      simp only [J.putQ]
      refine .dict (sorted_smAdd hs.1 _ _) (smAdd_ne_nil _ _ _) fun e he => ?_
      rcases mem_smAdd he with h | h
      · rw [h]
        cases hg : smGet kvs k with
        | none => exact tree_nest hv ks
        | some n => exact tree_put hv ks n (Or.inl (hs.2 _ (smGet_mem hg)))
      · exact hs.2 _ h
    · rcases hb with hb | hb
      · rw [putQ_leaf hd]; exact hb
      · rw [hb.1] at hd; exact absurd trivial hd
termination_by p => p.length

theorem leaf_below {b : J} (h : b.TreeQ) : ∃ q w, b.leafAt q = some w ∧ (b.IsDict → q ≠ []) := by
  induction h with
  | leaf hv => exact ⟨[], _, by rw [leafAt_leaf (leafQ_notDict hv)]; rfl, fun hd => absurd hd (leafQ_notDict hv)⟩
  | @dict id kvs hs hne _ ih =>
    cases kvs with
    | nil => exact absurd rfl hne
    | cons e kvs =>
      obtain ⟨q, w, h, _⟩ := ih e (List.mem_cons_self ..)
      refine ⟨e.1 :: q, w, ?_, fun _ => by simp⟩
      simp [J.leafAt, smGet, h]

/-- Something is in the way exactly if there is a leaf above, at or below. -/
theorem not_free {b : J} : ∀ {p : List Bytes}, b.TreeQ ∨ (b = .dict 0 [] ∧ p ≠ []) → b.freeQ p = false → ∃ q w, b.leafAt q = some w ∧ (q <+: p ∨ p <+: q)
  | [], hb, _ => by
    rcases hb with hb | hb
    · obtain ⟨q, w, h, _⟩ := leaf_below hb
      exact ⟨q, w, h, Or.inr (List.nil_prefix)⟩
    · exact absurd rfl hb.2
  | k :: ks, hb, hf => by
    by_cases hd : b.IsDict
    · obtain ⟨id, kvs, rfl⟩ : ∃ id kvs, b = .dict id kvs := by cases b <;> first | exact ⟨_, _, rfl⟩ | exact absurd hd id
      simp only [J.freeQ] at hf
      cases hg : smGet kvs k with
      | none => rw [hg] at hf; cases hf
      | some n =>
        rw [hg] at hf
        have hn : n.TreeQ := by
          rcases hb with hb | hb
          · cases hb with
            | leaf h => exact absurd hd (leafQ_notDict h)
            | dict _ _ h3 => exact h3 _ (smGet_mem hg)
          · cases hb.1; cases hg
        obtain ⟨q, w, h1, h2⟩ := not_free (p := ks) (Or.inl hn) hf
        refine ⟨k :: q, w, by simp [J.leafAt, hg, h1], ?_⟩
        simpa [List.cons_prefix_cons] using h2
    · rcases hb with hb | hb
      · exact ⟨[], b, by rw [leafAt_leaf hd]; rfl, Or.inl (List.nil_prefix)⟩
      · rw [hb.1] at hd; exact absurd trivial hd

theorem free_no_leaf {b : J} : ∀ {p q : List Bytes}, b.freeQ p = true → q <+: p → b.leafAt q = none
  | [], q, hf, _ => by cases b <;> simp [J.freeQ] at hf
  | k :: ks, q, hf, hq => by
    cases b with
    | dict id kvs =>
      cases q with
      | nil => simp [J.leafAt]
      | cons k' q =>
        rw [List.cons_prefix_cons] at hq
        obtain ⟨rfl, hq⟩ := hq
        simp only [J.freeQ] at hf
        simp only [J.leafAt]
        cases hg : smGet kvs k' with
        | none => rfl
        | some n => rw [hg] at hf; exact free_no_leaf hf hq
    | _ => simp [J.freeQ] at hf

/-! ### the code -/

/-- Pieces that are no numbers. -/
def TextPath (ps : List Bytes) : Prop := ∀ p ∈ ps, ¬ ∃ n, IsNumber p n

theorem text_toText {p : Bytes} (h : ¬ ∃ n, IsNumber p n) : (string2TextNumber p).toText = p :=
  (toText_eq_iff p).2 fun n hn => absurd ⟨n, hn⟩ h

theorem addSeg_new {val : List Bytes} {v : J} (hv : queryLeaf val = .ok v) : ∀ (ps : List Bytes), TextPath ps →
    (addSeg (segsOf ps) none val).2 = .ok (nestQ ps v)
  | [], _ => by simp only [segsOf, List.map_nil, addSeg, hv, nestQ]
  | k :: ks, h => by
    have hk := h k (List.mem_cons_self ..)
    have ih := addSeg_new hv ks fun p hp => h p (List.mem_cons_of_mem _ hp)
    have ht : ¬ ((string2TextNumber k).isNumber = true ∧ (string2TextNumber k).number = 0) := by
      rw [string2TextNumber_text hk]; simp
    show (addSeg (string2TextNumber k :: segsOf ks) none val).2 = _
    rw [addSeg_dict _ _ _ 0 [] none (Or.inr ⟨rfl, rfl, rfl, ht⟩)]
    simp only [smGet, ih, text_toText hk, smAdd, nestQ]

theorem addSeg_str (s : TextNumber) (segs : List TextNumber) (val : List Bytes) (t : Bytes) : (addSeg (s :: segs) (some (.str t)) val).1 = some (.str t) := rfl

theorem addSeg_keep (segs : List TextNumber) (val : List Bytes) (t : Bytes) : ((addSeg segs (some (.str t)) val).1).getD (.str t) = .str t := by
  cases segs <;> rfl

theorem addSeg_leafArr {k : Bytes} (hk : ¬ ∃ n, IsNumber k n) (segs : List TextNumber) (val : List Bytes) {ss : List Bytes} (hs : ss ≠ []) :
    (addSeg (string2TextNumber k :: segs) (some (.arr (ss.map .str))) val).1 = some (.arr (ss.map .str)) := by
  rw [addSeg_arr _ _ _ (ss.map .str) _ (Or.inl rfl), string2TextNumber_text hk]
  cases ss with
  | nil => exact absurd rfl hs
  | cons s ss =>
    have h0 : (0 : Int) < ((List.map J.str (s :: ss)).length : Int) := by simp
    have hg : arrGetAt (List.map J.str (s :: ss)) 0 = .ok (.str s) := by
      simp [arrGetAt]
    simp only [h0, if_true, hg, addSeg_keep]
    simp

theorem addSeg_put {val : List Bytes} {v : J} (hv : queryLeaf val = .ok v) : ∀ (ps : List Bytes) (b : J), TextPath ps → b.TreeQ →
    (addSeg (segsOf ps) (some b) val).1 = some (J.putQ v b ps)
  | [], b, _, _ => by
    have h1 : J.putQ v b [] = b := by cases b <;> simp [J.putQ]
    rw [h1]; rfl
  | k :: ks, b, h, hb => by
    have hk := h k (List.mem_cons_self ..)
    have hks : TextPath ks := fun p hp => h p (List.mem_cons_of_mem _ hp)
    show (addSeg (string2TextNumber k :: segsOf ks) (some b) val).1 = _
    cases hb with
    | leaf hl =>
      rw [putQ_leaf (leafQ_notDict hl)]
      rcases hl with ⟨s, rfl⟩ | ⟨ss, hs, rfl⟩
      · rfl
      · exact addSeg_leafArr hk _ _ hs
    | @dict id kvs hs _ hc =>
      rw [addSeg_dict _ _ _ id kvs _ (Or.inl rfl), text_toText hk]
      simp only [J.putQ]
      cases hg : smGet kvs k with
      | none => simp only [addSeg_new hv ks hks]; rfl
      | some n =>
        simp only [addSeg_put hv ks n hks (hc _ (smGet_mem hg)), Option.getD_some]
        rfl

theorem addSeg_root_put {val : List Bytes} {v : J} (hv : queryLeaf val = .ok v) {k : Bytes} (hk : QueryKey k) {ks : List Bytes} (hks : TextPath ks) {id : Int} {kvs : SMap J}
    (hc : ∀ e ∈ kvs, e.2.TreeQ) :
    ∃ b, J.putQ v (.dict id kvs) (k :: ks) = .dict id b ∧
      addSeg (segsOf (k :: ks)) (some (.dict id kvs)) val = (some (.dict id b), .ok (.dict id b)) := by
  refine ⟨_, by simp only [J.putQ]; rfl, ?_⟩
  show addSeg (string2TextNumber k :: segsOf ks) (some (.dict id kvs)) val = _
  rw [addSeg_dict _ _ _ id kvs _ (Or.inl rfl), (toText_eq_iff k).2 hk.2]
  cases hg : smGet kvs k with
  | none => simp only [addSeg_new hv ks hks]; rfl
  | some n =>
    simp only [addSeg_put hv ks n hks (hc _ (smGet_mem hg)), Option.getD_some]
    rfl

theorem queryLeaf_leafQ {vs : List Bytes} (h : vs ≠ []) : ∃ v, queryLeaf vs = .ok v ∧ v.leafQ ∧ FromValues vs v := by
  match vs with
  | [] => exact absurd rfl h
  | [v] => exact ⟨_, rfl, Or.inl ⟨v, rfl⟩, Or.inl ⟨v, rfl, rfl⟩⟩
  | a :: b :: r => exact ⟨_, rfl, Or.inr ⟨a :: b :: r, by simp, rfl⟩, Or.inr ⟨by simp, rfl⟩⟩

/-- The paths and what they hold. -/
def Mirror (L : List (List Bytes)) (val : List Bytes → List Bytes) (b : J) : Prop :=
  ∀ q w, b.leafAt q = some w ↔ q ∈ L ∧ (∀ q' ∈ L, q' <+: q → q' = q) ∧ FromValues (val q) w

theorem fromValues_fun {vs : List Bytes} {w w' : J} (h : FromValues vs w) (h' : FromValues vs w') : w = w' := by
  rcases h with ⟨v, rfl, rfl⟩ | ⟨h1, rfl⟩ <;> rcases h' with ⟨v', h2, rfl⟩ | ⟨h2, rfl⟩
  · cases h2; rfl
  · simp at h2
  · rw [h2] at h1; simp at h1
  · rfl

/-- The root: a dictionary of trees. -/
def RootQ (b : J) : Prop := b.TreeQ ∧ (∃ kvs, b = .dict 0 kvs) ∨ b = .dict 0 []

theorem rootQ_dict {b : J} (h : RootQ b) : ∃ kvs, b = .dict 0 kvs ∧ ∀ e ∈ kvs, e.2.TreeQ := by
  rcases h with ⟨h, kvs, rfl⟩ | rfl
  · cases h with
    | leaf h => exact absurd trivial (leafQ_notDict h)
    | dict _ _ h3 => exact ⟨_, rfl, h3⟩
  · exact ⟨_, rfl, by simp⟩

theorem mirror_step {L : List (List Bytes)} {val : List Bytes → List Bytes} {b : J} (hr : RootQ b) (hm : Mirror L val b) {p : List Bytes} (hp : p ≠ []) (hn : p ∉ L)
    (hlen : ∀ q ∈ L, q.length ≤ p.length) (hval : ∀ q ∈ L, val q ≠ []) {v : J} (hl : v.leafQ) (hv : FromValues (val p) v) : Mirror (L ++ [p]) val (J.putQ v b p) := by
  have hb : b.TreeQ ∨ (b = .dict 0 [] ∧ p ≠ []) := hr.elim (fun h => Or.inl h.1) fun h => Or.inr ⟨h, hp⟩
  -- keys that stop on the way
  have hfree : b.freeQ p = true ↔ ∀ q ∈ L, ¬ q <+: p := by
    constructor
    · intro hf q hq hpre
      -- the shortest key on the way holds a leaf
      have hmin : ∃ q' ∈ L, q' <+: p ∧ ∀ r ∈ L, r <+: q' → r = q' := by
        have aux : ∀ (n : Nat) (q : List Bytes), q.length ≤ n → q ∈ L → q <+: p → ∃ q' ∈ L, q' <+: p ∧ ∀ r ∈ L, r <+: q' → r = q' := by
          intro n
          induction n with
          | zero => intro q h0 hq hpre; exact ⟨q, hq, hpre, fun r _ hr => by
              have : q = [] := List.length_eq_zero_iff.1 (by omega)
              subst this; exact List.prefix_nil.1 hr⟩
          | succ n ih =>
            intro q h0 hq hpre
            by_cases hall : ∀ r ∈ L, r <+: q → r = q
            · exact ⟨q, hq, hpre, hall⟩
            · have : ∃ r, r ∈ L ∧ r <+: q ∧ r ≠ q := Classical.byContradiction fun hc => hall fun r h1 h2 => Classical.byContradiction fun h3 => hc ⟨r, h1, h2, h3⟩
              obtain ⟨r, h1, h2, h3⟩ := this
              have hlt : r.length < q.length := by
                rcases Nat.lt_or_ge r.length q.length with h | h
                · exact h
                · exact absurd (h2.eq_of_length (Nat.le_antisymm h2.length_le h)) h3
              exact ih r (by omega) h1 (h2.trans hpre)
        exact aux _ q (Nat.le_refl _) hq hpre
      obtain ⟨q', h1, h2, h3⟩ := hmin
      obtain ⟨w, _, _, hw⟩ := queryLeaf_leafQ (hval q' h1)
      have := (hm q' w).2 ⟨h1, h3, hw⟩
      rw [free_no_leaf hf h2] at this
      cases this
    · intro h
      cases hf : b.freeQ p with
      | true => rfl
      | false =>
        exfalso
        obtain ⟨q, w, h1, h2⟩ := not_free hb hf
        obtain ⟨hq, _, _⟩ := (hm q w).1 h1
        rcases h2 with h2 | h2
        · exact h q hq h2
        · have := h2.eq_of_length (Nat.le_antisymm h2.length_le (hlen q hq))
          exact hn (this ▸ hq)
  intro q w
  rw [leafAt_put (leafQ_notDict hl) p q b (hr.elim (fun h => Or.inl h.1) Or.inr)]
  by_cases hq : q = p
  · subst hq
    cases hf : b.freeQ q with
    | true =>
      simp only [and_self, if_true, Option.some.injEq]
      have hf' := hfree.1 hf
      constructor
      · rintro rfl
        refine ⟨by simp, fun q' hq' hpre => ?_, hv⟩
        rcases List.mem_append.1 hq' with h | h
        · exact absurd hpre (hf' q' h)
        · simpa using h
      · rintro ⟨_, _, h⟩
        exact fromValues_fun hv h
    | false =>
      simp only [Bool.false_eq_true, and_false, if_false]
      constructor
      · intro h; exact absurd ((hm q w).1 h).1 hn
      · rintro ⟨_, h, _⟩
        exfalso
        have : ¬ ∀ q' ∈ L, ¬ q' <+: q := fun h' => by rw [hfree.2 h'] at hf; cases hf
        refine this fun q' hq' hpre => ?_
        have := h q' (List.mem_append_left _ hq') hpre
        exact hn (this ▸ hq')
  · simp only [hq, false_and, if_false]
    rw [hm q w]
    constructor
    · rintro ⟨h1, h2, h3⟩
      refine ⟨List.mem_append_left _ h1, fun q' hq' hpre => ?_, h3⟩
      rcases List.mem_append.1 hq' with h | h
      · exact h2 q' h hpre
      · simp only [List.mem_singleton] at h
        subst h
        exact hpre.eq_of_length (Nat.le_antisymm hpre.length_le (hlen q h1))
    · rintro ⟨h1, h2, h3⟩
      refine ⟨?_, fun q' hq' => h2 q' (List.mem_append_left _ hq'), h3⟩
      rcases List.mem_append.1 h1 with h | h
      · exact h
      · exact absurd (by simpa using h) hq

/-- A key of the modelled kind, as a path. -/
def PathQ (p : List Bytes) : Prop := ∃ k ks, p = k :: ks ∧ QueryKey k ∧ TextPath ks ∧ ∀ x ∈ ks, (46 : UInt8) ∉ x

theorem PathQ.good {p : List Bytes} (h : PathQ p) : GoodPath p := by
  obtain ⟨k, ks, rfl, h1, h2, h3⟩ := h
  intro x hx
  rcases List.mem_cons.1 hx with rfl | hx
  · exact h1
  · exact ⟨h3 x hx, fun n hn => absurd ⟨n, hn⟩ (h2 x hx)⟩

theorem PathQ.ne {p : List Bytes} (h : PathQ p) : p ≠ [] := by obtain ⟨k, ks, rfl, _⟩ := h; simp

theorem addAll_nested (m : Values) : ∀ (l L : List (List Bytes)) (b : J), RootQ b → Mirror L (fun q => valuesGet m (joinWith [46] q)) b →
    (∀ p ∈ l, PathQ p ∧ valuesGet m (joinWith [46] p) ≠ []) → (∀ q ∈ L, valuesGet m (joinWith [46] q) ≠ []) → (L ++ l).Nodup →
    (∀ q ∈ L, ∀ p ∈ l, q.length ≤ p.length) → l.Pairwise (fun p q => p.length ≤ q.length) →
    ∃ b', addAllSegs m (l.map segsOf) b = .ok b' ∧ RootQ b' ∧ Mirror (L ++ l) (fun q => valuesGet m (joinWith [46] q)) b'
  | [], L, b, hr, hm, _, _, _, _, _ => ⟨b, rfl, hr, by simpa using hm⟩
  | p :: l, L, b, hr, hm, hl, hL, hn, hlen, hsort => by
    obtain ⟨hp, hv⟩ := hl p (List.mem_cons_self ..)
    obtain ⟨v, hv1, hv2, hv3⟩ := queryLeaf_leafQ hv
    have hpn : p ∉ L := fun h => by
      rw [List.nodup_append] at hn
      exact hn.2.2 p h p (List.mem_cons_self ..) rfl
    have hm' := mirror_step hr hm hp.ne hpn (fun q hq => hlen q hq p (List.mem_cons_self ..)) hL hv2 hv3
    obtain ⟨k, ks, rfl, hk, hks, _⟩ := id hp
    obtain ⟨kvs, rfl, hc⟩ := rootQ_dict hr
    obtain ⟨b1, hb1, hb2⟩ := addSeg_root_put hv1 hk hks (id := 0) hc
    have hr' : RootQ (J.putQ v (.dict 0 kvs) (k :: ks)) := by
      refine Or.inl ⟨tree_put hv2 _ _ ?_, ⟨_, hb1⟩⟩
      exact hr.elim (fun h => Or.inl h.1) fun h => Or.inr ⟨h, by simp⟩
    rw [List.pairwise_cons] at hsort
    obtain ⟨b', h1, h2, h3⟩ := addAll_nested m l (L ++ [k :: ks]) (J.putQ v (.dict 0 kvs) (k :: ks)) hr' hm'
      (fun q hq => hl q (List.mem_cons_of_mem _ hq))
      (fun q hq => by
        rcases List.mem_append.1 hq with h | h
        · exact hL q h
        · rw [List.mem_singleton.1 h]; exact hv)
      (by simpa [List.append_assoc] using hn)
      (fun q hq p' hp' => by
        rcases List.mem_append.1 hq with h | h
        · exact hlen q h p' (List.mem_cons_of_mem _ hp')
        · rw [List.mem_singleton.1 h]; exact hsort.1 p' hp')
      hsort.2
    refine ⟨b', ?_, h2, by simpa [List.append_assoc] using h3⟩
    rw [List.map_cons, addAllSegs, (good_segments (by simp) hp.good).2, hb2]
    simp only [Option.getD_some]
    rw [← hb1]
    exact h1

theorem walks_leafAt {w : J} (hw : ¬ w.IsDict) : ∀ (ps : List Bytes) (b : J), Walks b ps w ↔ b.leafAt ps = some w
  | [], b => by
    constructor
    · intro h; cases h; rw [leafAt_leaf hw]; rfl
    · intro h
      by_cases hd : b.IsDict
      · cases b <;> first | (simp [J.leafAt] at h; done) | exact absurd hd id
      · rw [leafAt_leaf hd] at h; simp only [if_true, Option.some.injEq] at h; subst h; exact .here _
  | k :: ks, b => by
    constructor
    · intro h
      cases h with
      | step hg h => simp only [J.leafAt, hg]; exact (walks_leafAt hw ks _).1 h
    · intro h
      cases b with
      | dict id kvs =>
        simp only [J.leafAt] at h
        cases hg : smGet kvs k with
        | none => rw [hg] at h; cases h
        | some n => rw [hg] at h; exact .step hg ((walks_leafAt hw ks n).2 h)
      | _ => simp [J.leafAt] at h

/-- A dictionary below the root is on the way to a leaf, and conversely. -/
theorem dict_leaf : ∀ (ps : List Bytes) (b : J), b.TreeQ → ((∃ w, J.IsDict w ∧ Walks b ps w) ↔ ∃ r w, r ≠ [] ∧ b.leafAt (ps ++ r) = some w)
  | [], b, hb => by
    constructor
    · rintro ⟨w, hd, hw⟩
      cases hw
      obtain ⟨q, w, h1, h2⟩ := leaf_below hb
      exact ⟨q, w, h2 hd, h1⟩
    · rintro ⟨r, w, hr, h⟩
      refine ⟨b, ?_, .here _⟩
      by_cases hd : b.IsDict
      · exact hd
      · rw [List.nil_append, leafAt_leaf hd, if_neg hr] at h; cases h
  | k :: ks, b, hb => by
    cases hb with
    | leaf hl =>
      have hd := leafQ_notDict hl
      constructor
      · rintro ⟨w, _, hw⟩
        cases hw; exact absurd trivial hd
      · rintro ⟨r, w, _, h⟩
        rw [leafAt_leaf hd] at h; simp at h
    | @dict id kvs hs _ hc =>
      cases hg : smGet kvs k with
      | none =>
        constructor
        · rintro ⟨w, _, hw⟩; cases hw with
          | step h _ => rw [hg] at h; cases h
        · rintro ⟨r, w, _, h⟩; simp [J.leafAt, hg] at h
      | some n =>
        have ih := dict_leaf ks n (hc _ (smGet_mem hg))
        constructor
        · rintro ⟨w, hd, hw⟩
          cases hw with
          | step h hw =>
            rw [hg] at h; cases h
            obtain ⟨r, w, h1, h2⟩ := ih.1 ⟨_, hd, hw⟩
            exact ⟨r, w, h1, by simpa [J.leafAt, hg] using h2⟩
        · rintro ⟨r, w, h1, h2⟩
          have h2' : n.leafAt (ks ++ r) = some w := by simpa [J.leafAt, hg] using h2
          obtain ⟨w', hd, hw⟩ := ih.2 ⟨r, w, h1, h2'⟩
          exact ⟨w', hd, .step hg hw⟩

theorem nested_query {str : Bytes} {kvs : List (Bytes × Bytes)} (h : IsQuery str kvs) (hk : ∀ e ∈ kvs, NestedKey e.1) :
    ∃ b L, parseQueryString str = .ok b ∧ RootQ b ∧ Mirror L (fun q => valuesOf kvs (joinWith [46] q)) b ∧ ∀ q, q ∈ L ↔ KeyPath kvs q := by
  have hn := keys_all kvs [] (by simp)
  let keys := (appendAll [] kvs).map (·.1)
  have hin : ∀ k, k ∈ keys ↔ k ∈ kvs.map (·.1) := fun k => by
    refine (hn.2 k).trans ?_
    simp
  have hpath : ∀ k ∈ keys, PathQ (splitOn 46 k) := by
    intro k hk'
    obtain ⟨e, he, rfl⟩ := List.mem_map.1 ((hin k).1 hk')
    have hp := (pieces_iff e.1 (splitOn 46 e.1)).2 rfl
    cases hs : splitOn 46 e.1 with
    | nil => exact absurd hs (splitOn_ne_nil _ _)
    | cons a as =>
      rw [hs] at hp
      obtain ⟨h1, h2⟩ := hk e he a as hp
      exact ⟨a, as, rfl, h1, h2, fun x hx => hp.2.1 x (List.mem_cons_of_mem _ hx)⟩
  let sorted := sortSegs (keys.map string2Segments)
  have hperm : sorted.Perm (keys.map string2Segments) := sortSegs_perm _
  let back : List TextNumber → List Bytes := fun s => splitOn 46 (segments2string s)
  have hback : ∀ k ∈ keys, back (string2Segments k) = splitOn 46 k := by
    intro k hk'
    have hp := hpath k hk'
    have := (good_segments hp.ne hp.good).2
    rw [join_splitOn] at this
    show splitOn 46 (segments2string (segsOf (splitOn 46 k))) = _
    rw [this]
  let l := sorted.map back
  have hl : l.map segsOf = sorted := by
    show (sorted.map back).map segsOf = sorted
    rw [List.map_map]
    conv => rhs; rw [← List.map_id sorted]
    apply List.map_congr_left
    intro s hs
    obtain ⟨k, hk', rfl⟩ := List.mem_map.1 (hperm.subset hs)
    simp only [Function.comp_apply, hback k hk', id_eq]
    rfl
  have hlp : l.Perm (keys.map (splitOn 46)) := by
    have := hperm.map back
    refine this.trans ?_
    rw [List.map_map, List.map_congr_left (g := splitOn 46)]
    intro k hk'
    exact hback k hk'
  have hmem : ∀ q, q ∈ l ↔ KeyPath kvs q := by
    intro q
    rw [hlp.mem_iff, List.mem_map]
    constructor
    · rintro ⟨k, hk', rfl⟩
      obtain ⟨e, he, rfl⟩ := List.mem_map.1 ((hin k).1 hk')
      exact ⟨e.1, e.2, he, (pieces_iff _ _).2 rfl⟩
    · rintro ⟨k, v, hkv, hp⟩
      exact ⟨k, (hin k).2 (List.mem_map.2 ⟨_, hkv, rfl⟩), (pieces_iff _ _).1 hp⟩
  have hnd : l.Nodup := by
    refine hlp.nodup_iff.2 ?_
    have h1 : keys.Nodup := hn.1
    refine List.Pairwise.map _ ?_ h1
    intro a b hab heq
    apply hab
    rw [← join_splitOn 46 a, ← join_splitOn 46 b, heq]
  have hsort : l.Pairwise fun p q => p.length ≤ q.length := by
    have hm : ∀ y ∈ keys.map string2Segments, Mades y := by
      intro y hy
      obtain ⟨k, _, rfl⟩ := List.mem_map.1 hy
      exact mades_string2Segments _
    have hs : (l.map segsOf).Pairwise fun a b => segsLess b a = false := by rw [hl]; exact sortSegs_sorted hm
    rw [List.pairwise_map] at hs
    refine hs.imp ?_
    intro a b hab
    rcases Nat.lt_or_ge b.length a.length with h | h
    · exfalso
      unfold segsLess at hab
      simp only [segsOf, List.length_map, h, if_true] at hab
      cases hab
    · exact h
  have hvals : ∀ q, valuesGet (appendAll [] kvs) (joinWith [46] q) = valuesOf kvs (joinWith [46] q) := by
    intro q; rw [valuesGet_all]; simp [valuesGet]
  obtain ⟨b, h1, h2, h3⟩ := addAll_nested (appendAll [] kvs) l [] (.dict 0 []) (Or.inr rfl)
    (fun q w => by cases q <;> simp [J.leafAt, smGet])
    (fun p hp => by
      have hp' := hlp.mem_iff.1 hp
      obtain ⟨k, hk', rfl⟩ := List.mem_map.1 hp'
      refine ⟨hpath k hk', ?_⟩
      rw [hvals, join_splitOn, valuesOf_ne_nil]
      exact (hin k).1 hk')
    (by simp) (by simpa using hnd) (by simp) hsort
  refine ⟨b, l, ?_, h2, ?_, hmem⟩
  · simp only [parseQueryString, parseQuery_params h]
    have : ((appendAll [] kvs).map fun kv => string2Segments kv.1) = keys.map string2Segments := by simp only [keys, List.map_map, Function.comp_def]
    rw [this]
    show addAllSegs _ sorted _ = _
    rw [← hl]
    exact h1
  · have : (fun q => valuesGet (appendAll [] kvs) (joinWith [46] q)) = fun q => valuesOf kvs (joinWith [46] q) := funext hvals
    rw [← this]
    simpa using h3

end Jsonutils
