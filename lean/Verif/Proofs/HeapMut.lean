import Verif.Proofs.Heap

/-! Mutation of documents in memory refines the operations on values. -/

namespace Jsonutils

theorem Seen_fun {h : Heap} {P Q : Addr → Prop} (v : J) : ∀ (w : J) (a : Addr), v.At h P a → w.At h Q a → v = w := by
  induction v using J.ind with
  | arr xs ih =>
    intro w a hv hw
    have key : ∀ (xs : List J), (∀ (i : Nat) x, xs[i]? = some x → ∀ w a, x.At h P a → w.At h Q a → x = w) →
        ∀ ys rs, J.Ats h P xs rs → J.Ats h Q ys rs → xs = ys := by
      intro xs
      induction xs with
      | nil =>
        intro _ ys rs h1 h2
        simp only [J.Ats] at h1; subst h1
        cases ys with
        | nil => rfl
        | cons y ys => simp [J.Ats] at h2
      | cons x xs ih2 =>
        intro hx ys rs h1 h2
        simp only [J.Ats] at h1
        obtain ⟨b, rs', rfl, h3, h4⟩ := h1
        cases ys with
        | nil => simp [J.Ats] at h2
        | cons y ys =>
          simp only [J.Ats] at h2
          obtain ⟨b', rs2, he, h5, h6⟩ := h2
          cases he
          rw [hx 0 x rfl y b h3 h5, ih2 (fun i z hz => hx (i + 1) z hz) ys rs' h4 h6]
    simp only [J.At] at hv
    obtain ⟨_, rs, h2, h3⟩ := hv
    cases w <;> simp only [J.At, h2] at hw
    case arr ys =>
      obtain ⟨_, rs', he, h5⟩ := hw
      cases he
      rw [key xs ih ys rs h3 h5]
    all_goals simp at hw
  | dict i kvs ih =>
    intro w a hv hw
    have key : ∀ (xs : List (Bytes × J)), (∀ k x, (k, x) ∈ xs → ∀ w a, x.At h P a → w.At h Q a → x = w) →
        ∀ ys rs, J.Atf h P xs rs → J.Atf h Q ys rs → xs = ys := by
      intro xs
      induction xs with
      | nil =>
        intro _ ys rs h1 h2
        simp only [J.Atf] at h1; subst h1
        cases ys with
        | nil => rfl
        | cons y ys => obtain ⟨k, y⟩ := y; simp [J.Atf] at h2
      | cons x xs ih2 =>
        obtain ⟨k, x⟩ := x
        intro hx ys rs h1 h2
        simp only [J.Atf] at h1
        obtain ⟨b, rs', rfl, h3, h4⟩ := h1
        cases ys with
        | nil => simp [J.Atf] at h2
        | cons y ys =>
          obtain ⟨k', y⟩ := y
          simp only [J.Atf] at h2
          obtain ⟨b', rs2, he, h5, h6⟩ := h2
          cases he
          rw [hx k x (by simp) y b h3 h5, ih2 (fun k z hz => hx k z (by simp [hz])) ys rs' h4 h6]
    simp only [J.At] at hv
    obtain ⟨_, rs, h2, h3⟩ := hv
    cases w <;> simp only [J.At, h2] at hw
    case dict j ys =>
      obtain ⟨_, rs', he, h5⟩ := hw
      cases he
      rw [key kvs ih ys rs h3 h5]
    all_goals simp at hw
  | _ =>
    intro w a hv hw
    simp only [J.At] at hv
    cases w <;> simp only [J.At, hv.2] at hw <;> simp_all

theorem reach_size {h : Heap} {a b : Addr} (hr : Reach h a b) : ∀ (v : J), v.Seen h a → ∃ w : J, w.Seen h b ∧ w.size ≤ v.size := by
  induction hr with
  | refl a => intro v hv; exact ⟨v, hv, Nat.le_refl _⟩
  | step ho hm _ ih =>
    intro v hv
    cases v <;> simp only [J.Seen, J.At] at hv
    case arr xs =>
      obtain ⟨_, rs, h2, h3⟩ := hv
      rw [h2] at ho; cases ho
      obtain ⟨i, x, hx, hA⟩ := Ats_mem xs rs h3 _ hm
      obtain ⟨w, hw, hs⟩ := ih x hA
      have := size_get hx
      exact ⟨w, hw, by simp only [J.size]; omega⟩
    case dict i kvs =>
      obtain ⟨_, rs, h2, h3⟩ := hv
      rw [h2] at ho; cases ho
      obtain ⟨k, x, hx, hA⟩ := Atf_mem kvs rs h3 _ hm
      obtain ⟨w, hw, hs⟩ := ih x hA
      have := size_mem hx
      exact ⟨w, hw, by simp only [J.size]; omega⟩
    all_goals rw [hv.2] at ho; cases ho; simp [Obj.refs] at hm

/-- A finite document is not reachable from its own parts. -/
theorem no_cycle {h : Heap} {v : J} {a c : Addr} {o : Obj} (hv : v.Seen h a) (ho : h[a]? = some o) (hc : some c ∈ o.refs) :
    ¬ Reach h c a := by
  intro hr
  have : ∃ x : J, x.Seen h c ∧ x.size < v.size := by
    cases v <;> simp only [J.Seen, J.At] at hv
    case arr xs =>
      obtain ⟨_, rs, h2, h3⟩ := hv
      rw [h2] at ho; cases ho
      obtain ⟨i, x, hx, hA⟩ := Ats_mem xs rs h3 _ hc
      have := size_get hx
      exact ⟨x, hA, by simp only [J.size]; omega⟩
    case dict i kvs =>
      obtain ⟨_, rs, h2, h3⟩ := hv
      rw [h2] at ho; cases ho
      obtain ⟨k, x, hx, hA⟩ := Atf_mem kvs rs h3 _ hc
      have := size_mem hx
      exact ⟨x, hA, by simp only [J.size]; omega⟩
    all_goals rw [hv.2] at ho; cases ho; simp [Obj.refs] at hc
  obtain ⟨x, hx, hs⟩ := this
  obtain ⟨w, hw, hs2⟩ := reach_size hr x hx
  have := Seen_fun v w a hv hw
  subst this; omega

/-- A document is unchanged if its objects are. -/
theorem Seen_keep {h h' : Heap} {v : J} {a : Addr} (hv : v.Seen h a)
    (hk : ∀ b, b < h.length → Reach h a b → h'[b]? = h[b]?) : v.Seen h' a :=
  At_agree (fun _ _ => trivial) (fun b o hb ho => by rw [hk b hb.2 hb.1]; exact ho) v a (Seen_reach v a hv)

theorem Ats_keep {h h' : Heap} : ∀ (xs : List J) (rs : List Ref), J.Ats h (fun _ => True) xs rs →
    (∀ (x : J) c, some c ∈ rs → x.Seen h c → x.Seen h' c) → J.Ats h' (fun _ => True) xs rs := by
  intro xs
  induction xs with
  | nil => intro rs h _; exact h
  | cons x xs ih =>
    intro rs hr hk
    simp only [J.Ats] at hr ⊢
    obtain ⟨b, rs', rfl, h1, h2⟩ := hr
    exact ⟨b, rs', rfl, hk x b (by simp) h1, ih rs' h2 fun y c hc => hk y c (by simp [hc])⟩

theorem Atf_keep {h h' : Heap} : ∀ (xs : List (Bytes × J)) (rs : SMap Ref), J.Atf h (fun _ => True) xs rs →
    (∀ k (x : J) c, (k, some c) ∈ rs → x.Seen h c → x.Seen h' c) → J.Atf h' (fun _ => True) xs rs := by
  intro xs
  induction xs with
  | nil => intro rs h _; exact h
  | cons e xs ih =>
    obtain ⟨k, x⟩ := e
    intro rs hr hk
    simp only [J.Atf] at hr ⊢
    obtain ⟨b, rs', rfl, h1, h2⟩ := hr
    exact ⟨b, rs', rfl, hk k x b (by simp) h1, ih rs' h2 fun k y c hc => hk k y c (by simp [hc])⟩

theorem Atf_get {h : Heap} {P : Addr → Prop} : ∀ (xs : List (Bytes × J)) (rs : SMap Ref), J.Atf h P xs rs → ∀ k,
    (smGet xs k = none → smGet rs k = none) ∧ (∀ x, smGet xs k = some x → ∃ b, smGet rs k = some (some b) ∧ x.At h P b) := by
  intro xs
  induction xs with
  | nil => intro rs hr k; simp only [J.Atf] at hr; subst hr; simp [smGet]
  | cons e xs ih =>
    obtain ⟨k', x⟩ := e
    intro rs hr k
    simp only [J.Atf] at hr
    obtain ⟨b, rs', rfl, h1, h2⟩ := hr
    simp only [smGet]
    split
    · exact ⟨by simp, fun y hy => by cases hy; exact ⟨b, rfl, h1⟩⟩
    · exact ih rs' h2 k

/-- One entry of a dictionary is replaced or added; the others are still seen. -/
theorem Atf_smAdd {h h' : Heap} {k : Bytes} {y : J} {e : Addr} (hy : y.Seen h' e) : ∀ (xs : List (Bytes × J)) (rs : SMap Ref),
    SMap.Sorted xs → J.Atf h (fun _ => True) xs rs → (∀ k' (x : J) c, k' ≠ k → (k', some c) ∈ rs → x.Seen h c → x.Seen h' c) →
    J.Atf h' (fun _ => True) (smAdd xs k y) (smAdd rs k (some e)) := by
  intro xs
  induction xs with
  | nil =>
    intro rs _ hr _
    simp only [J.Atf] at hr; subst hr
    simp only [smAdd, J.Atf]
    exact ⟨e, [], rfl, hy, rfl⟩
  | cons z xs ih =>
    obtain ⟨k', x⟩ := z
    intro rs hs hr hk
    simp only [J.Atf] at hr
    obtain ⟨b, rs', rfl, h1, h2⟩ := hr
    rw [sorted_cons] at hs
    simp only [smAdd]
    split
    · rename_i hlt
      simp only [J.Atf]
      exact ⟨b, _, rfl, hk k' x b (blt_ne hlt) (by simp) h1, ih rs' hs.2 h2 fun k2 y c hne hc => hk k2 y c hne (by simp [hc])⟩
    · have rest : ∀ (hle : k' = k ∨ blt k k' = true), J.Atf h' (fun _ => True) xs rs' := by
        intro hle
        refine Atf_keep xs rs' h2 fun k2 y c hc => hk k2 y c ?_ (by simp [hc])
        have hmem : k2 ∈ rs'.map (·.1) := List.mem_map.2 ⟨_, hc, rfl⟩
        rw [Atf_keys xs rs' h2] at hmem
        obtain ⟨q, hq, rfl⟩ := List.mem_map.1 hmem
        have h3 := hs.1 q hq
        rintro rfl
        rcases hle with hle | hle
        · rw [hle, blt_irrefl] at h3; cases h3
        · have := blt_trans hle h3; rw [blt_irrefl] at this; cases this
      split
      · rename_i he
        simp only [J.Atf]
        exact ⟨e, rs', rfl, hy, rest (Or.inl he)⟩
      · rename_i hlt hne
        have hgt : blt k k' = true := by
          rcases blt_total k' k with h | h | h
          · exact absurd h hlt
          · exact absurd h hne
          · exact h
        simp only [J.Atf]
        refine ⟨e, _, rfl, hy, b, rs', rfl, hk k' x b hne (by simp) h1, rest (Or.inr hgt)⟩

theorem Atf_smDelete {h h' : Heap} {k : Bytes} : ∀ (xs : List (Bytes × J)) (rs : SMap Ref),
    J.Atf h (fun _ => True) xs rs → (∀ k' (x : J) c, (k', some c) ∈ rs → x.Seen h c → x.Seen h' c) →
    J.Atf h' (fun _ => True) (smDelete xs k).1 (smDelete rs k).1 ∧ (smDelete xs k).2 = (smDelete rs k).2 := by
  intro xs
  induction xs with
  | nil =>
    intro rs hr _
    simp only [J.Atf] at hr; subst hr
    exact ⟨rfl, rfl⟩
  | cons z xs ih =>
    obtain ⟨k', x⟩ := z
    intro rs hr hk
    simp only [J.Atf] at hr
    obtain ⟨b, rs', rfl, h1, h2⟩ := hr
    simp only [smDelete]
    split
    · exact ⟨Atf_keep xs rs' h2 fun k2 y c hc => hk k2 y c (by simp [hc]), rfl⟩
    · obtain ⟨h3, h4⟩ := ih rs' h2 fun k2 y c hc => hk k2 y c (by simp [hc])
      refine ⟨?_, h4⟩
      simp only [J.Atf]
      exact ⟨b, _, rfl, hk k' x b (by simp) h1, h3⟩

theorem set_get_ne {h : Heap} {d b : Addr} (o : Obj) (hne : b ≠ d) : (h.set d o)[b]? = h[b]? := by
  rw [List.getElem?_set]; simp [Ne.symm hne]

theorem set_get {h : Heap} {d : Addr} {o o' : Obj} (ho : h[d]? = some o') : (h.set d o)[d]? = some o := by
  have := (List.getElem?_eq_some_iff.1 ho).1
  simp [this]

/-- Overwriting an object does not disturb documents that do not reach it. -/
theorem Seen_set {h : Heap} {d : Addr} {o : Obj} {v : J} {a : Addr} (hv : v.Seen h a) (hn : ¬ Reach h a d) : v.Seen (h.set d o) a :=
  Seen_keep hv fun b _ hr => set_get_ne o (fun e => hn (e ▸ hr))

theorem setH_seen {h : Heap} {d b : Addr} {id : Int} {kvs : SMap J} {x : J} (k : Bytes) (hs : SMap.Sorted kvs) (hd : (J.dict id kvs).Seen h d)
    (hx : x.Seen h b) (hn : ¬ Reach h b d) :
    ∃ h', setH h d k (some b) = some h' ∧ (J.dict id (smAdd kvs k x)).Seen h' d ∧ h'.length = h.length ∧ ∀ y, y ≠ d → h'[y]? = h[y]? := by
  have hd0 := hd
  simp only [J.Seen, J.At] at hd
  obtain ⟨_, rs, h2, h3⟩ := hd
  refine ⟨h.set d (.dict id (smAdd rs k (some b))), by simp only [setH, h2], ?_, by simp, fun y hy => set_get_ne _ hy⟩
  simp only [J.Seen, J.At]
  refine ⟨trivial, _, set_get h2, Atf_smAdd (Seen_set hx hn) kvs rs hs h3 fun k' y c _ hc hy => Seen_set hy ?_⟩
  exact no_cycle hd0 h2 (by simp only [Obj.refs]; exact List.mem_map.2 ⟨_, hc, rfl⟩)

theorem removeH_seen {h : Heap} {d : Addr} {id : Int} {kvs : SMap J} (k : Bytes) (hd : (J.dict id kvs).Seen h d) :
    ∃ h', removeH h d k = some ((dictRemove kvs k).2, h') ∧ (J.dict id (dictRemove kvs k).1).Seen h' d := by
  have hd0 := hd
  simp only [J.Seen, J.At] at hd
  obtain ⟨_, rs, h2, h3⟩ := hd
  obtain ⟨h4, h5⟩ := Atf_smDelete (h' := h.set d (.dict id (smDelete rs k).1)) (k := k) kvs rs h3 fun k' y c hc hy =>
    Seen_set hy (no_cycle hd0 h2 (by simp only [Obj.refs]; exact List.mem_map.2 ⟨_, hc, rfl⟩))
  refine ⟨h.set d (.dict id (smDelete rs k).1), by simp only [removeH, h2, dictRemove, h5], ?_⟩
  simp only [J.Seen, J.At, dictRemove]
  exact ⟨trivial, _, set_get h2, h4⟩

theorem Ats_length {h : Heap} {P : Addr → Prop} : ∀ (xs : List J) (rs : List Ref), J.Ats h P xs rs → rs.length = xs.length := by
  intro xs
  induction xs with
  | nil => intro rs hr; simp only [J.Ats] at hr; subst hr; rfl
  | cons x xs ih =>
    intro rs hr
    simp only [J.Ats] at hr
    obtain ⟨b, rs', rfl, _, h2⟩ := hr
    simp [ih rs' h2]

theorem Ats_set {h : Heap} {P : Addr → Prop} {y : J} {e : Addr} (hy : y.At h P e) : ∀ (xs : List J) (rs : List Ref) (i : Nat),
    J.Ats h P xs rs → J.Ats h P (xs.set i y) (rs.set i (some e)) := by
  intro xs
  induction xs with
  | nil => intro rs i hr; simp only [J.Ats] at hr; subst hr; simp [J.Ats]
  | cons x xs ih =>
    intro rs i hr
    simp only [J.Ats] at hr
    obtain ⟨b, rs', rfl, h1, h2⟩ := hr
    cases i with
    | zero => simp only [List.set_cons_zero, J.Ats]; exact ⟨e, rs', rfl, hy, h2⟩
    | succ i => simp only [List.set_cons_succ, J.Ats]; exact ⟨b, _, rfl, h1, ih rs' i h2⟩

theorem Ats_append {h : Heap} {P : Addr → Prop} {ys : List J} {ss : List Ref} (hy : J.Ats h P ys ss) : ∀ (xs : List J) (rs : List Ref),
    J.Ats h P xs rs → J.Ats h P (xs ++ ys) (rs ++ ss) := by
  intro xs
  induction xs with
  | nil => intro rs hr; simp only [J.Ats] at hr; subst hr; exact hy
  | cons x xs ih =>
    intro rs hr
    simp only [J.Ats] at hr
    obtain ⟨b, rs', rfl, h1, h2⟩ := hr
    simp only [List.cons_append, J.Ats]
    exact ⟨b, _, rfl, h1, ih rs' h2⟩

theorem setAtH_seen {h : Heap} {d b : Addr} {xs : List J} {x : J} (i : Int) (hd : (J.arr xs).Seen h d) (hx : x.Seen h b)
    (hn : ¬ Reach h b d) :
    (arrSetAt xs i x = none → setAtH h d i (some b) = none) ∧
    (∀ ys, arrSetAt xs i x = some ys → ∃ h', setAtH h d i (some b) = some h' ∧ (J.arr ys).Seen h' d) := by
  have hd0 := hd
  simp only [J.Seen, J.At] at hd
  obtain ⟨_, rs, h2, h3⟩ := hd
  have hl := Ats_length xs rs h3
  simp only [arrSetAt, setAtH, h2, hl]
  split
  · refine ⟨by simp, fun ys hys => ?_⟩
    cases hys
    refine ⟨_, rfl, ?_⟩
    simp only [J.Seen, J.At]
    refine ⟨trivial, _, set_get h2, Ats_set (Seen_set hx hn) xs rs _ (Ats_keep xs rs h3 fun y c hc hy => Seen_set hy (no_cycle hd0 h2 hc))⟩
  · exact ⟨fun _ => rfl, by simp⟩

theorem arrAddH_seen {h : Heap} {d : Addr} {xs ys : List J} {ss : List Ref} (hd : (J.arr xs).Seen h d) (hy : J.Ats h (fun _ => True) ys ss)
    (hn : ∀ b, some b ∈ ss → ¬ Reach h b d) :
    ∃ h', arrAddH h d ss = some h' ∧ (J.arr (arrAdd xs ys)).Seen h' d := by
  have hd0 := hd
  simp only [J.Seen, J.At] at hd
  obtain ⟨_, rs, h2, h3⟩ := hd
  refine ⟨h.set d (.arr (rs ++ ss)), by simp only [arrAddH, h2], ?_⟩
  simp only [J.Seen, J.At, arrAdd]
  exact ⟨trivial, _, set_get h2, Ats_append (Ats_keep ys ss hy fun y c hc hy => Seen_set hy (hn c hc)) xs rs
    (Ats_keep xs rs h3 fun y c hc hy => Seen_set hy (no_cycle hd0 h2 hc))⟩

/-! ### `Add` along a path -/

theorem reach_trans {h : Heap} {a b c : Addr} (h1 : Reach h a b) (h2 : Reach h b c) : Reach h a c := by
  induction h1 with
  | refl => exact h2
  | step ho hm _ ih => exact .step ho hm (ih h2)

/-- What `Add` leaves alone: everything but dictionaries reachable from the receiver. -/
def AddFrame (h h' : Heap) (d : Addr) : Prop :=
  h.length ≤ h'.length ∧ ∀ x, x < h.length → ¬ (Reach h d x ∧ DictAt h x) → h'[x]? = h[x]?

theorem addH_blocked {h : Heap} {d b : Addr} {id : Int} {rs : SMap Ref} {k k2 : Bytes} {ks : List Bytes} {o : Ref}
    (hobj : h[d]? = some (.dict id rs)) (hb : smGet rs k = some (some b)) (hb0 : b ≠ nullAddr)
    (hnd : ∀ i m, h[b]? ≠ some (.dict i m)) : addH h d o (k :: k2 :: ks) = some (some .invalidDict, h) := by
  rw [addH.eq_def]
  simp only [hobj, hb]
  rw [if_neg (by simpa using hb0)]

theorem addH_seen (w : J) (o : Addr) : ∀ (path : List Bytes) (h : Heap) (d : Addr) (id : Int) (kvs : SMap J),
    h[nullAddr]? = some .null → (J.dict id kvs).WF → (J.dict id kvs).Seen h d → w.Seen h o →
    (∀ x, Reach h o x → DictAt h x → ¬ Reach h d x) →
    (∀ x, Reach h d x → h[x]? = some .null → x = nullAddr) → Unaliased h d path →
    ∃ h', addH h d (some o) path = some ((dictAdd kvs w path).2, h') ∧ (J.dict id (dictAdd kvs w path).1).Seen h' d ∧ AddFrame h h' d := by
  intro path
  induction path with
  | nil =>
    intro h d id kvs _ _ hd _ _ _ _
    exact ⟨h, rfl, hd, Nat.le_refl _, fun _ _ _ => rfl⟩
  | cons k ks ih =>
    intro h d id kvs h0 hwf hd hw hsep hnull hun
    have hs : SMap.Sorted kvs := (wf_dict_iff.1 hwf).1
    have hd0 := hd
    have hd1 := hd
    simp only [J.Seen, J.At] at hd1
    obtain ⟨_, rs, hobj, hrs⟩ := hd1
    have hdd : DictAt h d := ⟨id, rs, hobj⟩
    have hod : ¬ Reach h o d := fun hr => hsep d hr hdd (.refl d)
    have hdlt : d < h.length := (List.getElem?_eq_some_iff.1 hobj).1
    cases ks with
    | nil =>
      obtain ⟨h', h1, h2, h3, h4⟩ := setH_seen k hs hd hw hod
      refine ⟨h', by simp only [addH, h1, dictAdd, Option.map_some], by simpa only [dictAdd] using h2, by omega, fun x _ hx => h4 x ?_⟩
      rintro rfl; exact hx ⟨.refl _, hdd⟩
    | cons k2 ks =>
      -- creating a missing level
      have create : ∀ (hk : smGet rs k = none ∨ smGet rs k = some (some nullAddr)) (hlev : levelAt kvs k = .dict 0 []),
          ∃ h', addH h d (some o) (k :: k2 :: ks) = some ((dictAdd kvs w (k :: k2 :: ks)).2, h') ∧
            (J.dict id (dictAdd kvs w (k :: k2 :: ks)).1).Seen h' d ∧ AddFrame h h' d := by
        intro hk hlev
        have hda : dictAdd kvs w (k :: k2 :: ks) = (smAdd kvs k (.dict 0 (dictAdd [] w (k2 :: ks)).1), (dictAdd [] w (k2 :: ks)).2) := by
          rw [dictAdd_cons2 kvs hs, hlev]
        let h1 : Heap := (h ++ [Obj.dict 0 []]).set d (.dict id (smAdd rs k (some h.length)))
        have hlen1 : h1.length = h.length + 1 := by simp [h1]
        have hold : ∀ x, x < h.length → x ≠ d → h1[x]? = h[x]? := by
          intro x hx hne
          simp only [h1]
          rw [set_get_ne _ hne, List.getElem?_append_left hx]
        have hnew : h1[h.length]? = some (.dict 0 []) := by
          simp only [h1]
          rw [set_get_ne _ (Nat.ne_of_gt hdlt)]; exact fresh_get
        have hd1' : h1[d]? = some (.dict id (smAdd rs k (some h.length))) := by
          simp only [h1]
          exact set_get (o' := .dict id rs) (by rw [List.getElem?_append_left hdlt]; exact hobj)
        have hw1 : w.Seen h1 o := Seen_keep hw fun b hb hr => hold b hb (fun e => hod (e ▸ hr))
        have e_seen : (J.dict 0 []).Seen h1 h.length := by
          simp only [J.Seen, J.At]; exact ⟨trivial, [], hnew, rfl⟩
        have e_reach : ∀ x, Reach h1 h.length x → x = h.length := by
          intro x hr
          cases hr with
          | refl => rfl
          | step ho hm _ => rw [hnew] at ho; cases ho; simp [Obj.refs] at hm
        have h0lt : nullAddr < h.length := (List.getElem?_eq_some_iff.1 h0).1
        have h0d : nullAddr ≠ d := by rintro e; rw [← e, h0] at hobj; cases hobj
        obtain ⟨h2, q1, q2, q3, q4⟩ := ih h1 h.length 0 [] (by rw [hold _ h0lt h0d]; exact h0)
          (wf_dict_iff.2 ⟨sorted_nil, by simp⟩) e_seen hw1
          (by
            intro x hr _ hr2
            rw [e_reach x hr2] at hr
            have hin := At_reach w o (At_agree (Q := fun b => b < h.length) (fun b hb => hb.2) (fun b q hb hq => by
              rw [hold b hb.2 (fun e => hod (e ▸ hb.1))]; exact hq) w o (Seen_reach w o hw)) h.length hr
            exact absurd hin.1 (Nat.lt_irrefl _))
          (by intro x hr hx; rw [e_reach x hr, hnew] at hx; cases hx)
          (by
            cases ks with
            | nil => trivial
            | cons k3 ks =>
              intro id' kvs' b ho hg
              rw [hnew] at ho; cases ho; simp [smGet] at hg)
        have hd2 : h2[d]? = some (.dict id (smAdd rs k (some h.length))) := by
          rw [q4 d (by rw [hlen1]; exact Nat.lt_succ_of_lt hdlt) (fun h => Nat.ne_of_lt hdlt (e_reach d h.1))]; exact hd1'
        have keep : ∀ x, x < h.length → x ≠ d → h2[x]? = h[x]? := by
          intro x hx hne
          rw [q4 x (by omega) (fun h => Nat.ne_of_lt hx (e_reach x h.1))]; exact hold x hx hne
        refine ⟨h2, ?_, ?_, by omega, ?_⟩
        · rw [addH.eq_def, hda]
          simp only [hobj, Heap.alloc]
          rcases hk with hk | hk
          · simp only [hk, if_true]; exact q1
          · simp only [hk, beq_self_eq_true, if_true]; exact q1
        · rw [hda]
          simp only [J.Seen, J.At]
          refine ⟨trivial, _, hd2, Atf_smAdd q2 kvs rs hs hrs fun k' x c _ hc hx => Seen_keep hx fun b hb hr => keep b hb ?_⟩
          intro e
          exact no_cycle hd0 hobj (by simp only [Obj.refs]; exact List.mem_map.2 ⟨_, hc, rfl⟩) (e ▸ hr)
        · intro x hx hn
          refine keep x hx ?_
          rintro rfl; exact hn ⟨.refl _, hdd⟩
      obtain ⟨g1, g2⟩ := Atf_get kvs rs hrs k
      cases hg : smGet kvs k with
      | none =>
        exact create (Or.inl (g1 hg)) (by simp only [levelAt, hg])
      | some x =>
        obtain ⟨b, hb, hxb⟩ := g2 x hg
        have hbm : some b ∈ (Obj.dict id rs).refs := by
          simp only [Obj.refs]; exact smGet_mem_refs hb
        have hdb : Reach h d b := .step hobj hbm (.refl b)
        cases x with
        | null =>
          have hbn : h[b]? = some .null := by simp only [J.At] at hxb; exact hxb.2
          have : b = nullAddr := hnull b hdb hbn
          exact create (Or.inr (by rw [hb, this])) (by simp only [levelAt, hg])
        | dict id' sub =>
          have hbx := hxb
          simp only [J.At] at hbx
          obtain ⟨_, rs', hobj', _⟩ := hbx
          have hbd : DictAt h b := ⟨id', rs', hobj'⟩
          have hb0 : b ≠ nullAddr := by rintro rfl; rw [h0] at hobj'; cases hobj'
          simp only [Unaliased] at hun
          obtain ⟨hsib, hun'⟩ := hun id rs b hobj hb
          obtain ⟨h2, q1, q2, q3, q4⟩ := ih h b id' sub h0 (wf_smGet hwf hg) hxb hw
            (fun x hr hx hr2 => hsep x hr hx (reach_trans hdb hr2))
            (fun x hr hx => hnull x (reach_trans hdb hr) hx) hun'
          have hnd : ¬ Reach h b d := no_cycle hd0 hobj hbm
          refine ⟨h2, ?_, ?_, q3, ?_⟩
          · rw [addH.eq_def]
            simp only [hobj, hb]
            rw [if_neg (by simpa using hb0)]
            simp only [hobj']
            rw [show (dictAdd kvs w (k :: k2 :: ks)).2 = (dictAdd sub w (k2 :: ks)).2 by simp only [dictAdd, hg]]
            exact q1
          · have : (dictAdd kvs w (k :: k2 :: ks)).1 = smAdd kvs k (.dict id' (dictAdd sub w (k2 :: ks)).1) := by
              simp only [dictAdd, hg]
            rw [this]
            have hrs_sorted : SMap.Sorted rs := sorted_of_keys (Atf_keys kvs rs hrs) hs
            simp only [J.Seen, J.At]
            refine ⟨trivial, rs, ?_, ?_⟩
            · rw [q4 d hdlt (fun h => hnd h.1)]; exact hobj
            · have := Atf_smAdd (k := k) q2 kvs rs hs hrs fun k' x c hne hc hx => Seen_keep hx fun y hy hr => q4 y hy (by
                rintro ⟨hr1, hr2⟩
                exact hsib k' c hne (smGet_of_mem hrs_sorted hc) y hr1 hr2 hr)
              rw [smAdd_same rs hrs_sorted k (some b) hb] at this; exact this
          · intro x hx hn
            exact q4 x hx fun h => hn ⟨reach_trans hdb h.1, h.2⟩
        | _ =>
          have hda : dictAdd kvs w (k :: k2 :: ks) = (kvs, some .invalidDict) := by
            rw [dictAdd_cons2 kvs hs]; simp only [levelAt, hg]
          refine ⟨h, ?_, by rw [hda]; exact hd0, Nat.le_refl _, fun _ _ _ => rfl⟩
          rw [hda]
          refine addH_blocked hobj hb ?_ ?_
          all_goals
            simp only [J.At] at hxb
            first
            | (obtain ⟨_, rs', hobj', _⟩ := hxb
               first
               | (rintro rfl; rw [h0] at hobj'; cases hobj')
               | (intro i m hm; rw [hobj'] at hm; cases hm))
            | (obtain ⟨_, hobj'⟩ := hxb
               first
               | (rintro rfl; rw [h0] at hobj'; cases hobj')
               | (intro i m hm; rw [hobj'] at hm; cases hm))

end Jsonutils
