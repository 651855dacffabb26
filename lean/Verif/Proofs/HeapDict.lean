import Verif.Spec.HeapDict
import Verif.Proofs.HeapRead
import Verif.Proofs.Dict
import Verif.Proofs.HeapMut

/-! Proofs for `Props/HeapDict`. -/

namespace Jsonutils

theorem foldl_filter_sorted {α} {m : SMap α} (hs : SMap.Sorted m) (p : Bytes × α → Bool) :
    m.foldl (fun a kv => if p kv then smAdd a kv.1 kv.2 else a) [] = m.filter p := by
  have h1 : SMap.Sorted (m.filter p) := List.Pairwise.sublist List.filter_sublist hs
  have := foldl_smAdd_sorted (m.filter p) [] (by simpa using h1)
  rw [List.nil_append, List.foldl_filter] at this
  exact this

theorem alloc_prefix (h : Heap) (o : Obj) : h <+: (h.alloc o).2 := ⟨[o], rfl⟩

theorem alloc_get (h : Heap) (o : Obj) : (h.alloc o).2[h.length]? = some o := by simp [Heap.alloc]

/-- `Equals` reads only what is there. -/
theorem equals_prefix {h h' : Heap} (hp : h <+: h') (hin : ∀ o ∈ h, RefsIn h o.refs) : ∀ f r s, RefsIn h [r] → RefsIn h [s] →
    equalsH f h' r s = equalsH f h r s := by
  intro f
  induction f with
  | zero => intro r s _ _; cases r <;> rfl
  | succ f ih =>
    intro r s hr hs
    cases r with
    | none => rfl
    | some a =>
      have ha : h'[a]? = h[a]? := prefix_get' hp (hr a (by simp))
      have hb : (s.bind fun b => h'[b]?) = s.bind fun b => h[b]? := by
        cases s with
        | none => rfl
        | some b => exact prefix_get' hp (hs b (by simp))
      have hsub : ∀ {c : Addr} {o : Obj} {x : Ref}, h[c]? = some o → x ∈ o.refs → RefsIn h [x] := by
        intro c o x hc hx b hbx
        simp only [List.mem_singleton] at hbx
        subst hbx
        exact hin o (List.mem_of_getElem? hc) b hx
      have hel : ∀ xs ys : List Ref, (∀ x ∈ xs, RefsIn h [x]) → (∀ y ∈ ys, RefsIn h [y]) →
          equalElemsH (equalsH f h') xs ys = equalElemsH (equalsH f h) xs ys := by
        intro xs
        induction xs with
        | nil => intro ys _ _; rfl
        | cons x xs ih2 =>
          intro ys h1 h2
          cases ys with
          | nil => rfl
          | cons y ys =>
            simp only [equalElemsH]
            rw [ih x y (h1 x (by simp)) (h2 y (by simp)), ih2 ys (fun z hz => h1 z (by simp [hz])) (fun z hz => h2 z (by simp [hz]))]
      have hen : ∀ (m : SMap Ref), (∀ e ∈ m, RefsIn h [e.2]) → ∀ kvs : SMap Ref, (∀ e ∈ kvs, RefsIn h [e.2]) →
          equalEntriesH (equalsH f h') m kvs = equalEntriesH (equalsH f h) m kvs := by
        intro m hm kvs
        induction kvs with
        | nil => intro _; rfl
        | cons e kvs ih2 =>
          obtain ⟨k, x⟩ := e
          intro h1
          simp only [equalEntriesH]
          have e2 := ih2 fun z hz => h1 z (by simp [hz])
          cases hg : smGet m k with
          | none => exact e2
          | some y =>
            simp only
            rw [ih x y (h1 _ List.mem_cons_self) (hm _ (smGet_mem hg)), e2]
      rw [equalsH.eq_def, equalsH.eq_def]
      simp only
      rw [hb, ha]
      cases ho : h[a]? with
      | none => rfl
      | some o =>
        cases o with
        | arr xs =>
          simp only
          cases hb2 : (s.bind fun b => h[b]?) with
          | none => rfl
          | some o2 =>
            cases o2 with
            | arr ys =>
              simp only
              cases s with
              | none => cases hb2
              | some b =>
                have hb3 : h[b]? = some (.arr ys) := hb2
                rw [hel xs ys (fun x hx => hsub ho (by simpa [Obj.refs] using hx)) (fun x hx => hsub hb3 (by simpa [Obj.refs] using hx))]
            | _ => rfl
        | dict i kvs =>
          simp only
          cases hb2 : (s.bind fun b => h[b]?) with
          | none => rfl
          | some o2 =>
            cases o2 with
            | dict i2 kvs2 =>
              simp only
              cases s with
              | none => cases hb2
              | some b =>
                have hb3 : h[b]? = some (.dict i2 kvs2) := hb2
                rw [hen kvs2 (fun e he => hsub hb3 (List.mem_map.2 ⟨e, he, rfl⟩)) kvs (fun e he => hsub ho (List.mem_map.2 ⟨e, he, rfl⟩))]
            | _ => rfl
        | _ => rfl

/-- What the loop of `Diff` has done when it returns. -/
theorem diffLoop_ok {h : Heap} (hin : ∀ o ∈ h, RefsIn h o.refs) {f : Nat} {bA : SMap Ref} (hbA : ∀ e ∈ bA, RefsIn h [e.2]) :
    ∀ (r : SMap Ref) (h1 : Heap) (dif same dif' same' : SMap Ref) (h2 : Heap), h <+: h1 → SMap.Sorted r → (∀ e ∈ r, RefsIn h [e.2]) →
    SMap.Sorted dif → SMap.Sorted same → (∀ e ∈ dif, ∀ e' ∈ r, blt e.1 e'.1 = true) → (∀ e ∈ same, ∀ e' ∈ r, blt e.1 e'.1 = true) →
    (∀ e ∈ dif, ∃ n, e.2 = some n ∧ n < h1.length) → (∀ k k' c, (k, c) ∈ dif → (k', c) ∈ dif → k = k') →
    diffLoopH f bA h1 r dif same = .ok ((dif', same'), h2) →
    h1 <+: h2 ∧ SMap.Sorted dif' ∧ SMap.Sorted same' ∧
    (∀ k x, (k, x) ∈ r → x ≠ none ∧ ∃ y, smGet bA k = some y ∧ y ≠ none ∧ ∃ b, equalsH f h x y = .ok b) ∧
    (∀ k x, (k, x) ∈ same' ↔ (k, x) ∈ same ∨ (k, x) ∈ r ∧ ∃ y, smGet bA k = some y ∧ equalsH f h x y = .ok true) ∧
    (∀ k, (∃ c, (k, c) ∈ dif') ↔ (∃ c, (k, c) ∈ dif) ∨ ∃ x y, (k, x) ∈ r ∧ smGet bA k = some y ∧ equalsH f h x y = .ok false) ∧
    (∀ k c, (k, c) ∈ dif' → (k, c) ∈ dif ∨ ∃ n x y, c = some n ∧ h1.length ≤ n ∧ n < h2.length ∧ h2[n]? = some (.arr [x, y]) ∧ (k, x) ∈ r ∧ smGet bA k = some y) ∧
    (∀ k k' c, (k, c) ∈ dif' → (k', c) ∈ dif' → k = k') := by
  intro r
  induction r with
  | nil =>
    intro h1 dif same dif' same' h2 _ _ _ h4 h5 _ _ _ h9 he
    simp only [diffLoopH, CRes.ok.injEq, Prod.mk.injEq] at he
    obtain ⟨⟨rfl, rfl⟩, rfl⟩ := he
    exact ⟨List.prefix_rfl, h4, h5, by simp, by simp, by simp, by simp, h9⟩
  | cons e r ih =>
    obtain ⟨k, x⟩ := e
    intro h1 dif same dif' same' h2 hp hs hr hsd hss hld hls hlt hinj he
    rw [sorted_cons] at hs
    simp only [diffLoopH] at he
    split at he
    · cases he
    rename_i hnn
    simp only [Bool.or_eq_true, not_or, Option.isNone_iff_eq_none] at hnn
    obtain ⟨hx, hy⟩ := hnn
    cases hg : smGet bA k with
    | none => rw [hg] at hy; exact absurd rfl hy
    | some y =>
      simp only [hg, Option.getD_some] at he hy
      have heq : equalsH f h1 x y = equalsH f h x y :=
        equals_prefix hp hin f x y (hr _ List.mem_cons_self) (hbA _ (smGet_mem hg))
      have hr' : ∀ e ∈ r, RefsIn h [e.2] := fun e he => hr e (List.mem_cons_of_mem _ he)
      have hk : ∀ x', (k, x') ∈ r → False := fun x' hx' => by
        have := hs.1 _ hx'
        simp only [blt_irrefl] at this
        cases this
      rw [heq] at he
      cases hb : equalsH f h x y with
      | panic => rw [hb] at he; cases he
      | fuel => rw [hb] at he; cases he
      | ok b =>
        have huse : x ≠ none ∧ ∃ y, smGet bA k = some y ∧ y ≠ none ∧ ∃ b, equalsH f h x y = .ok b := ⟨hx, y, hg, hy, b, hb⟩
        cases b with
        | true =>
          rw [hb] at he
          simp only at he
          have hadd : smAdd same k x = same ++ [(k, x)] := smAdd_append (fun e he => hls e he (k, x) List.mem_cons_self) x
          obtain ⟨g1, g2, g3, g4, g5, g6, g7, g8⟩ := ih h1 dif (smAdd same k x) dif' same' h2 hp hs.2 hr' hsd (sorted_smAdd hss k x)
            (fun e he e' he' => hld e he e' (List.mem_cons_of_mem _ he'))
            (by
              rw [hadd]
              intro e he e' he'
              rcases List.mem_append.1 he with he | he
              · exact hls e he e' (List.mem_cons_of_mem _ he')
              · simp only [List.mem_singleton] at he; subst he; exact hs.1 e' he')
            hlt hinj he
          refine ⟨g1, g2, g3, ?_, ?_, ?_, ?_, g8⟩
          · intro k2 x2 hm
            rcases List.mem_cons.1 hm with hm | hm
            · cases hm; exact huse
            · exact g4 k2 x2 hm
          · intro k2 x2
            rw [g5, hadd, List.mem_append, List.mem_singleton]
            constructor
            · rintro ((hm | hm) | hm)
              · exact Or.inl hm
              · cases hm; exact Or.inr ⟨List.mem_cons_self, y, hg, hb⟩
              · exact Or.inr ⟨List.mem_cons_of_mem _ hm.1, hm.2⟩
            · rintro (hm | ⟨hm, hm2⟩)
              · exact Or.inl (Or.inl hm)
              · rcases List.mem_cons.1 hm with hm | hm
                · exact Or.inl (Or.inr hm)
                · exact Or.inr ⟨hm, hm2⟩
          · intro k2
            rw [g6]
            constructor
            · rintro (hm | ⟨x2, y2, hm, hm2, hm3⟩)
              · exact Or.inl hm
              · exact Or.inr ⟨x2, y2, List.mem_cons_of_mem _ hm, hm2, hm3⟩
            · rintro (hm | ⟨x2, y2, hm, hm2, hm3⟩)
              · exact Or.inl hm
              · rcases List.mem_cons.1 hm with hm | hm
                · cases hm; rw [hg] at hm2; cases hm2; rw [hb] at hm3; cases hm3
                · exact Or.inr ⟨x2, y2, hm, hm2, hm3⟩
          · intro k2 c hm
            rcases g7 k2 c hm with hm | ⟨n, x2, y2, j1, j2, j3, j4, j5, j6⟩
            · exact Or.inl hm
            · exact Or.inr ⟨n, x2, y2, j1, j2, j3, j4, List.mem_cons_of_mem _ j5, j6⟩
        | false =>
          rw [hb] at he
          simp only at he
          have hadd : smAdd dif k (some h1.length) = dif ++ [(k, some h1.length)] := smAdd_append (fun e he => hld e he (k, x) List.mem_cons_self) _
          have hal : h1 <+: (h1.alloc (.arr [x, y])).2 := alloc_prefix _ _
          obtain ⟨g1, g2, g3, g4, g5, g6, g7, g8⟩ := ih (h1.alloc (.arr [x, y])).2 (smAdd dif k (some h1.length)) same dif' same' h2 (hp.trans hal) hs.2 hr'
            (sorted_smAdd hsd k _) hss
            (by
              rw [hadd]
              intro e he e' he'
              rcases List.mem_append.1 he with he | he
              · exact hld e he e' (List.mem_cons_of_mem _ he')
              · simp only [List.mem_singleton] at he; subst he; exact hs.1 e' he')
            (fun e he e' he' => hls e he e' (List.mem_cons_of_mem _ he'))
            (by
              rw [hadd]
              intro e he
              rcases List.mem_append.1 he with he | he
              · obtain ⟨n, hn, hl⟩ := hlt e he
                exact ⟨n, hn, Nat.lt_of_lt_of_le hl hal.length_le⟩
              · simp only [List.mem_singleton] at he; subst he; exact ⟨h1.length, rfl, by simp [Heap.alloc]⟩)
            (by
              rw [hadd]
              intro k2 k3 c hm hm'
              rcases List.mem_append.1 hm with hm | hm <;> rcases List.mem_append.1 hm' with hm' | hm'
              · exact hinj k2 k3 c hm hm'
              · simp only [List.mem_singleton, Prod.mk.injEq] at hm'
                obtain ⟨n, hn, hl⟩ := hlt _ hm
                simp only at hn
                rw [hm'.2] at hn; cases hn; exact absurd hl (Nat.lt_irrefl _)
              · simp only [List.mem_singleton, Prod.mk.injEq] at hm
                obtain ⟨n, hn, hl⟩ := hlt _ hm'
                simp only at hn
                rw [hm.2] at hn; cases hn; exact absurd hl (Nat.lt_irrefl _)
              · simp only [List.mem_singleton, Prod.mk.injEq] at hm hm'
                rw [hm.1, hm'.1])
            he
          have hlen : (h1.alloc (.arr [x, y])).2.length = h1.length + 1 := by simp [Heap.alloc]
          refine ⟨hal.trans g1, g2, g3, ?_, ?_, ?_, ?_, g8⟩
          · intro k2 x2 hm
            rcases List.mem_cons.1 hm with hm | hm
            · cases hm; exact huse
            · exact g4 k2 x2 hm
          · intro k2 x2
            rw [g5]
            constructor
            · rintro (hm | hm)
              · exact Or.inl hm
              · exact Or.inr ⟨List.mem_cons_of_mem _ hm.1, hm.2⟩
            · rintro (hm | ⟨hm, y2, hm2, hm3⟩)
              · exact Or.inl hm
              · rcases List.mem_cons.1 hm with hm | hm
                · cases hm; rw [hg] at hm2; cases hm2; rw [hb] at hm3; cases hm3
                · exact Or.inr ⟨hm, y2, hm2, hm3⟩
          · intro k2
            rw [g6, hadd]
            constructor
            · rintro (⟨c, hm⟩ | ⟨x2, y2, hm, hm2, hm3⟩)
              · rcases List.mem_append.1 hm with hm | hm
                · exact Or.inl ⟨c, hm⟩
                · simp only [List.mem_singleton, Prod.mk.injEq] at hm
                  obtain ⟨rfl, _⟩ := hm
                  exact Or.inr ⟨x, y, List.mem_cons_self, hg, hb⟩
              · exact Or.inr ⟨x2, y2, List.mem_cons_of_mem _ hm, hm2, hm3⟩
            · rintro (⟨c, hm⟩ | ⟨x2, y2, hm, hm2, hm3⟩)
              · exact Or.inl ⟨c, List.mem_append_left _ hm⟩
              · rcases List.mem_cons.1 hm with hm | hm
                · cases hm; exact Or.inl ⟨_, List.mem_append_right _ (List.mem_singleton.2 rfl)⟩
                · exact Or.inr ⟨x2, y2, hm, hm2, hm3⟩
          · intro k2 c hm
            rcases g7 k2 c hm with hm | ⟨n, x2, y2, j1, j2, j3, j4, j5, j6⟩
            · rw [hadd] at hm
              rcases List.mem_append.1 hm with hm | hm
              · exact Or.inl hm
              · simp only [List.mem_singleton, Prod.mk.injEq] at hm
                obtain ⟨rfl, rfl⟩ := hm
                refine Or.inr ⟨h1.length, x, y, rfl, Nat.le_refl _, ?_, ?_, List.mem_cons_self, hg⟩
                · exact Nat.lt_of_lt_of_le (by rw [hlen]; exact Nat.lt_succ_self _) g1.length_le
                · exact prefix_get g1 (alloc_get h1 _)
            · exact Or.inr ⟨n, x2, y2, j1, by omega, j3, j4, List.mem_cons_of_mem _ j5, j6⟩

/-- When the loop of `Diff` does not return. -/
theorem diffLoop_bad {h : Heap} (hin : ∀ o ∈ h, RefsIn h o.refs) {f : Nat} {bA : SMap Ref} (hbA : ∀ e ∈ bA, RefsIn h [e.2]) :
    ∀ (r : SMap Ref) (h1 : Heap) (dif same : SMap Ref), h <+: h1 → (∀ e ∈ r, RefsIn h [e.2]) →
    (diffLoopH f bA h1 r dif same = .panic → ∃ k x, (k, x) ∈ r ∧ (x = none ∨ (smGet bA k).getD none = none ∨ ∃ y, smGet bA k = some y ∧ equalsH f h x y = .panic)) ∧
    (diffLoopH f bA h1 r dif same = .fuel → ∃ k x y, (k, x) ∈ r ∧ smGet bA k = some y ∧ equalsH f h x y = .fuel) := by
  intro r
  induction r with
  | nil => intro h1 dif same _ _; exact ⟨(by intro he; cases he), (by intro he; cases he)⟩
  | cons e r ih =>
    obtain ⟨k, x⟩ := e
    intro h1 dif same hp hr
    have hr' : ∀ e ∈ r, RefsIn h [e.2] := fun e he => hr e (List.mem_cons_of_mem _ he)
    have up1 : ∀ {P : Bytes → Ref → Prop}, (∃ k x, (k, x) ∈ r ∧ P k x) → ∃ k' x', (k', x') ∈ (k, x) :: r ∧ P k' x' :=
      fun ⟨k', x', hm, hP⟩ => ⟨k', x', List.mem_cons_of_mem _ hm, hP⟩
    have up2 : (∃ k x y, (k, x) ∈ r ∧ smGet bA k = some y ∧ equalsH f h x y = .fuel) →
        ∃ k' x' y, (k', x') ∈ (k, x) :: r ∧ smGet bA k' = some y ∧ equalsH f h x' y = .fuel :=
      fun ⟨k', x', y, hm, hP⟩ => ⟨k', x', y, List.mem_cons_of_mem _ hm, hP⟩
    simp only [diffLoopH]
    split
    · rename_i hnn
      simp only [Bool.or_eq_true, Option.isNone_iff_eq_none] at hnn
      refine ⟨fun _ => ⟨k, x, List.mem_cons_self, ?_⟩, (by intro he; cases he)⟩
      rcases hnn with h | h
      · exact Or.inl h
      · exact Or.inr (Or.inl h)
    · rename_i hnn
      simp only [Bool.or_eq_true, not_or, Option.isNone_iff_eq_none] at hnn
      cases hg : smGet bA k with
      | none => rw [hg] at hnn; exact absurd rfl hnn.2
      | some y =>
        simp only [Option.getD_some]
        rw [equals_prefix hp hin f x y (hr _ List.mem_cons_self) (hbA _ (smGet_mem hg))]
        cases hb : equalsH f h x y with
        | panic => exact ⟨fun _ => ⟨k, x, List.mem_cons_self, Or.inr (Or.inr ⟨y, hg, hb⟩)⟩, (by intro he; cases he)⟩
        | fuel => exact ⟨(by intro he; cases he), fun _ => ⟨k, x, y, List.mem_cons_self, hg, hb⟩⟩
        | ok b =>
          cases b with
          | true =>
            simp only
            obtain ⟨g1, g2⟩ := ih h1 dif (smAdd same k x) hp hr'
            exact ⟨fun he => up1 (g1 he), fun he => up2 (g2 he)⟩
          | false =>
            simp only
            obtain ⟨g1, g2⟩ := ih (h1.alloc (.arr [x, y])).2 (smAdd dif k (some h1.length)) same (hp.trans (alloc_prefix _ _)) hr'
            exact ⟨fun he => up1 (g1 he), fun he => up2 (g2 he)⟩

theorem Atf_filter {h : Heap} {P : Addr → Prop} (p : Bytes → Bool) : ∀ (xs : List (Bytes × J)) (rs : SMap Ref), J.Atf h P xs rs →
    J.Atf h P (xs.filter fun e => p e.1) (rs.filter fun e => p e.1)
  | [], rs, hr => by simp only [J.Atf] at hr; subst hr; simp [J.Atf]
  | (k, x) :: xs, rs, hr => by
    simp only [J.Atf] at hr
    obtain ⟨b, rs', rfl, h1, h2⟩ := hr
    have ih := Atf_filter p xs rs' h2
    cases hp : p k with
    | true => simp only [List.filter_cons, hp, if_true, J.Atf]; exact ⟨b, _, rfl, h1, ih⟩
    | false => simpa only [List.filter_cons, hp, Bool.false_eq_true, if_false] using ih

theorem Atf_isSome {h : Heap} {P : Addr → Prop} {xs : List (Bytes × J)} {rs : SMap Ref} (hr : J.Atf h P xs rs) (k : Bytes) :
    (smGet rs k).isSome = (smGet xs k).isSome := by
  rw [← Option.not_isNone, ← Option.not_isNone, Atf_isNone hr]

theorem Atf_sorted {h : Heap} {P : Addr → Prop} {xs : List (Bytes × J)} {rs : SMap Ref} (hr : J.Atf h P xs rs) (hs : SMap.Sorted rs) : SMap.Sorted xs := by
  have h1 : (rs.map (·.1)).Pairwise fun a b => blt a b = true := List.pairwise_map.2 hs
  rw [Atf_keys xs rs hr] at h1
  exact List.pairwise_map.1 h1

/-- The loop of `Diff` on documents. -/
theorem diffLoop_seen {h : Heap} (hin : ∀ o ∈ h, RefsIn h o.refs) {f : Nat} : ∀ (xs : SMap J) (r : SMap Ref) (ys : SMap J) (bA : SMap Ref),
    J.Atf h (fun _ => True) xs r → J.Atf h (fun _ => True) ys bA → (∀ e ∈ xs, ∃ y, smGet ys e.1 = some y) →
    (∀ e ∈ xs, ∀ (w : J) (a b : Addr), J.Seen h e.2 a → J.Seen h w b → equalsH f h (some a) (some b) = .ok (e.2.equals w)) →
    ∀ (h1 : Heap) (D S : SMap J) (dif same : SMap Ref), h <+: h1 → J.Atf h1 (fun _ => True) D dif → J.Atf h1 (fun _ => True) S same →
    SMap.Sorted D → SMap.Sorted S → (∀ e ∈ r, RefsIn h [e.2]) → (∀ e ∈ bA, RefsIn h [e.2]) →
    ∃ dif' same' h2, diffLoopH f bA h1 r dif same = .ok ((dif', same'), h2) ∧ h1 <+: h2 ∧ J.Atf h2 (fun _ => True) (diffLoop ys xs D S).1 dif' ∧
      J.Atf h2 (fun _ => True) (diffLoop ys xs D S).2 same' := by
  intro xs
  induction xs with
  | nil =>
    intro r ys bA hr _ _ _ h1 D S dif same _ hD hS _ _ _ _
    simp only [J.Atf] at hr
    subst hr
    exact ⟨dif, same, h1, rfl, List.prefix_rfl, hD, hS⟩
  | cons e xs ih =>
    obtain ⟨k, x⟩ := e
    intro r ys bA hr hy hcom heq h1 D S dif same hp hD hS hsD hsS hir hib
    simp only [J.Atf] at hr
    obtain ⟨a, r', rfl, hx, hr'⟩ := hr
    obtain ⟨y, hgy⟩ := hcom (k, x) List.mem_cons_self
    simp only at hgy
    have hgb := Atf_smGet (k := k) ys bA hy
    rw [hgy] at hgb
    obtain ⟨b, hgb, hyb⟩ := hgb
    have he := heq (k, x) List.mem_cons_self y a b hx hyb
    have hpre := equals_prefix hp hin f (some a) (some b) (hir _ List.mem_cons_self) (hib _ (smGet_mem hgb))
    have hcom' : ∀ e ∈ xs, ∃ y, smGet ys e.1 = some y := fun e he => hcom e (List.mem_cons_of_mem _ he)
    have heq' := fun e (he : e ∈ xs) => heq e (List.mem_cons_of_mem _ he)
    have hir' : ∀ e ∈ r', RefsIn h [e.2] := fun e he => hir e (List.mem_cons_of_mem _ he)
    simp only [diffLoopH, hgb, Option.getD_some, Option.isNone_some, Bool.or_false, Bool.false_eq_true, if_false, hpre, he, diffLoop, hgy]
    cases hb : x.equals y with
    | true =>
      simp only [Bool.not_true, Bool.false_eq_true, if_false]
      exact ih r' ys bA hr' hy hcom' heq' h1 D (smAdd S k x) dif _ hp hD (Atf_smAdd (At_prefix hp hx) S same hsS hS fun _ _ _ _ _ hz => hz) hsD
        (sorted_smAdd hsS k x) hir' hib
    | false =>
      simp only [Bool.not_false, if_true]
      have hal := alloc_prefix h1 (.arr [some a, some b])
      have hal2 := hp.trans hal
      obtain ⟨dif', same', h2, g1, g2, g3, g4⟩ := ih r' ys bA hr' hy hcom' heq' (h1.alloc (.arr [some a, some b])).2 (smAdd D k (.arr [x, y])) S
        (smAdd dif k (some h1.length)) same hal2
        (Atf_smAdd (h := h1) (by
          simp only [J.At, J.Ats]
          exact ⟨trivial, _, alloc_get h1 _, a, _, rfl, At_prefix hal2 hx, b, _, rfl, At_prefix hal2 hyb, rfl⟩) D dif hsD hD
          fun _ _ _ _ _ hz => At_prefix hal hz)
        (Atf_keep S same hS fun _ _ _ _ hz => At_prefix hal hz) (sorted_smAdd hsD k _) hsS hir' hib
      exact ⟨dif', same', h2, g1, hal.trans g2, g3, g4⟩

end Jsonutils
