import Verif.Spec.Heap
import Verif.Proofs.DictMore

namespace Jsonutils

/-! ### `At` -/

/-- Reading depends only on the objects of the region. -/
theorem At_agree {h h' : Heap} {P Q : Addr → Prop} (hP : ∀ b, P b → Q b) (ha : ∀ b o, P b → h[b]? = some o → h'[b]? = some o) (v : J) :
    ∀ a, v.At h P a → v.At h' Q a := by
  induction v using J.ind with
  | arr xs ih =>
    have key : ∀ (xs : List J), (∀ (i : Nat) x, xs[i]? = some x → ∀ a, x.At h P a → x.At h' Q a) → ∀ rs, J.Ats h P xs rs → J.Ats h' Q xs rs := by
      intro xs
      induction xs with
      | nil => intro _ rs h; exact h
      | cons x xs ih2 =>
        intro hx rs hr
        simp only [J.Ats] at hr ⊢
        obtain ⟨b, rs', rfl, h1, h2⟩ := hr
        exact ⟨b, rs', rfl, hx 0 x rfl b h1, ih2 (fun i y hy => hx (i + 1) y hy) rs' h2⟩
    intro a hA
    simp only [J.At] at hA ⊢
    obtain ⟨h1, rs, h2, h3⟩ := hA
    exact ⟨hP _ h1, rs, ha _ _ h1 h2, key xs ih rs h3⟩
  | dict i kvs ih =>
    have key : ∀ (kvs : List (Bytes × J)), (∀ k x, (k, x) ∈ kvs → ∀ a, x.At h P a → x.At h' Q a) → ∀ rs, J.Atf h P kvs rs → J.Atf h' Q kvs rs := by
      intro kvs
      induction kvs with
      | nil => intro _ rs h; exact h
      | cons e kvs ih2 =>
        intro hx rs hr
        obtain ⟨k, x⟩ := e
        simp only [J.Atf] at hr ⊢
        obtain ⟨b, rs', rfl, h1, h2⟩ := hr
        exact ⟨b, rs', rfl, hx k x (by simp) b h1, ih2 (fun k y hy => hx k y (by simp [hy])) rs' h2⟩
    intro a hA
    simp only [J.At] at hA ⊢
    obtain ⟨h1, rs, h2, h3⟩ := hA
    exact ⟨hP _ h1, rs, ha _ _ h1 h2, key kvs ih rs h3⟩
  | _ => intro a hA; simp only [J.At] at hA ⊢; exact ⟨hP _ hA.1, ha _ _ hA.1 hA.2⟩

theorem At_root {h : Heap} {P : Addr → Prop} {v : J} {a : Addr} (hA : v.At h P a) : P a ∧ ∃ o, h[a]? = some o := by
  cases v <;> simp only [J.At] at hA
  case arr => obtain ⟨h1, rs, h2, _⟩ := hA; exact ⟨h1, _, h2⟩
  case dict => obtain ⟨h1, rs, h2, _⟩ := hA; exact ⟨h1, _, h2⟩
  all_goals exact ⟨hA.1, _, hA.2⟩

theorem Ats_mem {h : Heap} {P : Addr → Prop} : ∀ (xs : List J) (rs : List Ref), J.Ats h P xs rs → ∀ b, some b ∈ rs →
    ∃ (i : Nat) (x : J), xs[i]? = some x ∧ x.At h P b := by
  intro xs
  induction xs with
  | nil => intro rs hr b hb; simp only [J.Ats] at hr; subst hr; simp at hb
  | cons x xs ih =>
    intro rs hr b hb
    simp only [J.Ats] at hr
    obtain ⟨c, rs', rfl, h1, h2⟩ := hr
    rcases List.mem_cons.1 hb with he | hb
    · cases he; exact ⟨0, x, rfl, h1⟩
    · obtain ⟨i, y, hy, hA⟩ := ih rs' h2 b hb
      exact ⟨i + 1, y, hy, hA⟩

theorem Atf_mem {h : Heap} {P : Addr → Prop} : ∀ (kvs : List (Bytes × J)) (rs : SMap Ref), J.Atf h P kvs rs → ∀ b, some b ∈ rs.map (·.2) →
    ∃ k x, (k, x) ∈ kvs ∧ x.At h P b := by
  intro kvs
  induction kvs with
  | nil => intro rs hr b hb; simp only [J.Atf] at hr; subst hr; simp at hb
  | cons e kvs ih =>
    obtain ⟨k, x⟩ := e
    intro rs hr b hb
    simp only [J.Atf] at hr
    obtain ⟨c, rs', rfl, h1, h2⟩ := hr
    rw [List.map_cons] at hb
    rcases List.mem_cons.1 hb with he | hb
    · cases he; exact ⟨k, x, by simp, h1⟩
    · obtain ⟨k', y, hy, hA⟩ := ih rs' h2 b hb
      exact ⟨k', y, by simp [hy], hA⟩

/-- A region contains everything reachable. -/
theorem At_reach {h : Heap} {P : Addr → Prop} (v : J) : ∀ a, v.At h P a → ∀ b, Reach h a b → P b ∧ b < h.length := by
  induction v using J.ind with
  | arr xs ih =>
    intro a hA b hr
    simp only [J.At] at hA
    obtain ⟨h1, rs, h2, h3⟩ := hA
    cases hr with
    | refl => exact ⟨h1, (List.getElem?_eq_some_iff.1 h2).1⟩
    | step ho hm hr =>
      rw [h2] at ho; cases ho
      obtain ⟨i, x, hx, hA⟩ := Ats_mem xs rs h3 _ hm
      exact ih i x hx _ hA b hr
  | dict i kvs ih =>
    intro a hA b hr
    simp only [J.At] at hA
    obtain ⟨h1, rs, h2, h3⟩ := hA
    cases hr with
    | refl => exact ⟨h1, (List.getElem?_eq_some_iff.1 h2).1⟩
    | step ho hm hr =>
      rw [h2] at ho; cases ho
      obtain ⟨k, x, hx, hA⟩ := Atf_mem kvs rs h3 _ hm
      exact ih k x hx _ hA b hr
  | _ =>
    intro a hA b hr
    simp only [J.At] at hA
    cases hr with
    | refl => exact ⟨hA.1, (List.getElem?_eq_some_iff.1 hA.2).1⟩
    | step ho hm hr => rw [hA.2] at ho; cases ho; simp [Obj.refs] at hm

/-- A seen document occupies exactly objects that are reachable and allocated. -/
theorem Seen_reach {h : Heap} (v : J) : ∀ a, v.Seen h a → v.At h (fun b => Reach h a b ∧ b < h.length) a := by
  suffices H : ∀ (P : Addr → Prop), ∀ a, v.Seen h a → (∀ b, Reach h a b → P b) → v.At h (fun b => P b ∧ b < h.length) a from
    fun a hs => H _ a hs fun b hb => hb
  intro P
  induction v using J.ind with
  | arr xs ih =>
    have key : ∀ (xs : List J), (∀ (i : Nat) x, xs[i]? = some x → ∀ a, x.Seen h a → (∀ b, Reach h a b → P b) → x.At h (fun b => P b ∧ b < h.length) a) →
        ∀ rs, J.Ats h (fun _ => True) xs rs → (∀ c, some c ∈ rs → ∀ b, Reach h c b → P b) → J.Ats h (fun b => P b ∧ b < h.length) xs rs := by
      intro xs
      induction xs with
      | nil => intro _ rs h _; exact h
      | cons x xs ih2 =>
        intro hx rs hr hc
        simp only [J.Ats] at hr ⊢
        obtain ⟨b, rs', rfl, h1, h2⟩ := hr
        exact ⟨b, rs', rfl, hx 0 x rfl b h1 (hc b (by simp)), ih2 (fun i y hy => hx (i + 1) y hy) rs' h2 fun c hm => hc c (by simp [hm])⟩
    intro a hA hr
    simp only [J.Seen, J.At] at hA ⊢
    obtain ⟨h1, rs, h2, h3⟩ := hA
    exact ⟨⟨hr a (.refl a), (List.getElem?_eq_some_iff.1 h2).1⟩, rs, h2, key xs ih rs h3 fun c hc b hb => hr b (.step h2 hc hb)⟩
  | dict i kvs ih =>
    have key : ∀ (kvs : List (Bytes × J)), (∀ k x, (k, x) ∈ kvs → ∀ a, x.Seen h a → (∀ b, Reach h a b → P b) → x.At h (fun b => P b ∧ b < h.length) a) →
        ∀ rs, J.Atf h (fun _ => True) kvs rs → (∀ c, some c ∈ rs.map (·.2) → ∀ b, Reach h c b → P b) → J.Atf h (fun b => P b ∧ b < h.length) kvs rs := by
      intro kvs
      induction kvs with
      | nil => intro _ rs h _; exact h
      | cons e kvs ih2 =>
        obtain ⟨k, x⟩ := e
        intro hx rs hr hc
        simp only [J.Atf] at hr ⊢
        obtain ⟨b, rs', rfl, h1, h2⟩ := hr
        exact ⟨b, rs', rfl, hx k x (by simp) b h1 (hc b (by simp)), ih2 (fun k y hy => hx k y (by simp [hy])) rs' h2
          fun c hm => hc c (by rw [List.map_cons]; exact List.mem_cons_of_mem _ hm)⟩
    intro a hA hr
    simp only [J.Seen, J.At] at hA ⊢
    obtain ⟨h1, rs, h2, h3⟩ := hA
    exact ⟨⟨hr a (.refl a), (List.getElem?_eq_some_iff.1 h2).1⟩, rs, h2, key kvs ih rs h3 fun c hc b hb => hr b (.step h2 hc hb)⟩
  | _ =>
    intro a hA hr
    simp only [J.Seen, J.At] at hA ⊢
    exact ⟨⟨hr a (.refl a), (List.getElem?_eq_some_iff.1 hA.2).1⟩, hA.2⟩

theorem prefix_get {h h' : Heap} (hp : h <+: h') {b : Addr} {o : Obj} (ho : h[b]? = some o) : h'[b]? = some o := by
  obtain ⟨t, rfl⟩ := hp
  have := (List.getElem?_eq_some_iff.1 ho).1
  rw [List.getElem?_append_left this]; exact ho

theorem At_prefix {h h' : Heap} (hp : h <+: h') {P : Addr → Prop} {v : J} {a : Addr} (hA : v.At h P a) : v.At h' P a :=
  At_agree (fun _ h => h) (fun _ _ _ ho => prefix_get hp ho) v a hA

theorem Ats_agree {h h' : Heap} {P Q : Addr → Prop} (hP : ∀ b, P b → Q b) (ha : ∀ b o, P b → h[b]? = some o → h'[b]? = some o) :
    ∀ (xs : List J) (rs : List Ref), J.Ats h P xs rs → J.Ats h' Q xs rs := by
  intro xs
  induction xs with
  | nil => intro rs h; exact h
  | cons x xs ih =>
    intro rs hr
    simp only [J.Ats] at hr ⊢
    obtain ⟨b, rs', rfl, h1, h2⟩ := hr
    exact ⟨b, rs', rfl, At_agree hP ha x b h1, ih rs' h2⟩

theorem Atf_agree {h h' : Heap} {P Q : Addr → Prop} (hP : ∀ b, P b → Q b) (ha : ∀ b o, P b → h[b]? = some o → h'[b]? = some o) :
    ∀ (kvs : List (Bytes × J)) (rs : SMap Ref), J.Atf h P kvs rs → J.Atf h' Q kvs rs := by
  intro kvs
  induction kvs with
  | nil => intro rs h; exact h
  | cons e kvs ih =>
    obtain ⟨k, x⟩ := e
    intro rs hr
    simp only [J.Atf] at hr ⊢
    obtain ⟨b, rs', rfl, h1, h2⟩ := hr
    exact ⟨b, rs', rfl, At_agree hP ha x b h1, ih rs' h2⟩

theorem Atf_keys {h : Heap} {P : Addr → Prop} : ∀ (kvs : List (Bytes × J)) (rs : SMap Ref), J.Atf h P kvs rs →
    rs.map (·.1) = kvs.map (·.1) := by
  intro kvs
  induction kvs with
  | nil => intro rs hr; simp only [J.Atf] at hr; subst hr; rfl
  | cons e kvs ih =>
    obtain ⟨k, x⟩ := e
    intro rs hr
    simp only [J.Atf] at hr
    obtain ⟨b, rs', rfl, _, h2⟩ := hr
    simp [ih rs' h2]

/-- Entries may be listed in another order on both sides at once. -/
theorem Atf_perm {h : Heap} {P : Addr → Prop} {rs rs2 : SMap Ref} (hp : rs.Perm rs2) :
    ∀ kvs, J.Atf h P kvs rs → ∃ kvs2 : List (Bytes × J), kvs.Perm kvs2 ∧ J.Atf h P kvs2 rs2 := by
  induction hp with
  | nil =>
    intro kvs hr
    exact ⟨kvs, .refl _, hr⟩
  | cons e _ ih =>
    intro kvs hr
    cases kvs with
    | nil => simp [J.Atf] at hr
    | cons f kvs =>
      obtain ⟨k, x⟩ := f
      simp only [J.Atf] at hr
      obtain ⟨b, rs', he, h1, h2⟩ := hr
      cases he
      obtain ⟨kvs2, hp2, hr2⟩ := ih kvs h2
      exact ⟨(k, x) :: kvs2, hp2.cons _, by simp only [J.Atf]; exact ⟨b, _, rfl, h1, hr2⟩⟩
  | swap e f l =>
    intro kvs hr
    cases kvs with
    | nil => simp [J.Atf] at hr
    | cons e1 kvs =>
      obtain ⟨k1, x1⟩ := e1
      simp only [J.Atf] at hr
      obtain ⟨b, rs', he, h1, h2⟩ := hr
      cases he
      cases kvs with
      | nil => simp [J.Atf] at h2
      | cons e2 kvs =>
        obtain ⟨k2, x2⟩ := e2
        simp only [J.Atf] at h2
        obtain ⟨b2, rs2, he2, h3, h4⟩ := h2
        cases he2
        refine ⟨(k2, x2) :: (k1, x1) :: kvs, .swap _ _ _, ?_⟩
        simp only [J.Atf]
        exact ⟨b2, _, rfl, h3, b, _, rfl, h1, h4⟩
  | trans _ _ ih1 ih2 =>
    intro kvs hr
    obtain ⟨k2, p2, r2⟩ := ih1 kvs hr
    obtain ⟨k3, p3, r3⟩ := ih2 k2 r2
    exact ⟨k3, p2.trans p3, r3⟩

/-- The same with the documents leading. -/
theorem Atf_perm' {h : Heap} {P : Addr → Prop} {kvs kvs2 : List (Bytes × J)} (hp : kvs.Perm kvs2) :
    ∀ rs, J.Atf h P kvs rs → ∃ rs2 : SMap Ref, rs.Perm rs2 ∧ J.Atf h P kvs2 rs2 := by
  induction hp with
  | nil =>
    intro rs hr
    exact ⟨rs, .refl _, hr⟩
  | cons e _ ih =>
    obtain ⟨k, x⟩ := e
    intro rs hr
    simp only [J.Atf] at hr
    obtain ⟨b, rs', rfl, h1, h2⟩ := hr
    obtain ⟨rs2, hp2, hr2⟩ := ih rs' h2
    exact ⟨(k, some b) :: rs2, hp2.cons _, by simp only [J.Atf]; exact ⟨b, _, rfl, h1, hr2⟩⟩
  | swap e f l =>
    obtain ⟨k, x⟩ := e
    obtain ⟨k2, x2⟩ := f
    intro rs hr
    simp only [J.Atf] at hr
    obtain ⟨b, rs', rfl, h1, b2, rs2, rfl, h3, h4⟩ := hr
    refine ⟨(k, some b2) :: (k2, some b) :: rs2, .swap _ _ _, ?_⟩
    simp only [J.Atf]
    exact ⟨b2, _, rfl, h3, b, _, rfl, h1, h4⟩
  | trans _ _ ih1 ih2 =>
    intro rs hr
    obtain ⟨k2, p2, r2⟩ := ih1 rs hr
    obtain ⟨k3, p3, r3⟩ := ih2 k2 r2
    exact ⟨k3, p2.trans p3, r3⟩

/-! ### `DeepCopy` -/

variable {ord : SMap Ref → SMap Ref}

/-- The specification of copying the document `v` at `a`, for any later heap. -/
def CopyOk (ord : SMap Ref → SMap Ref) (v : J) : Prop :=
  ∀ (h : Heap) (a : Addr), v.Seen h a → ∃ f0 a' h', h <+: h' ∧ v.dropIds.At h' (fun b => h.length ≤ b) a' ∧
    ∀ f, f0 ≤ f → deepCopyH ord f h (some a) = .ok (some a', h')

theorem fresh_get {h : Heap} {o : Obj} : (h ++ [o])[h.length]? = some o := by simp

theorem copys_ok : ∀ (xs : List J), (∀ (i : Nat) x, xs[i]? = some x → CopyOk ord x) → ∀ (h : Heap) (rs : List Ref), J.Ats h (fun _ => True) xs rs →
    ∃ f0 rs' h', h <+: h' ∧ J.Ats h' (fun b => h.length ≤ b) (J.dropIdss xs) rs' ∧
      ∀ f, f0 ≤ f → deepCopysH ord f h rs = .ok (rs', h') := by
  intro xs
  induction xs with
  | nil =>
    intro _ h rs hr
    simp only [J.Ats] at hr; subst hr
    refine ⟨0, [], h, List.prefix_refl _, by simp [J.dropIdss, J.Ats], fun f _ => ?_⟩
    cases f <;> simp [deepCopysH]
  | cons x xs ih =>
    intro hx h rs hr
    simp only [J.Ats] at hr
    obtain ⟨b, rs', rfl, h1, h2⟩ := hr
    obtain ⟨f1, a', h1', hp1, hA1, hf1⟩ := hx 0 x rfl h b h1
    obtain ⟨f2, rs2, h2', hp2, hA2, hf2⟩ := ih (fun i y hy => hx (i + 1) y hy) h1' rs' (Ats_agree (fun _ h => h) (fun _ _ _ ho => prefix_get hp1 ho) _ _ h2)
    refine ⟨max f1 f2 + 1, some a' :: rs2, h2', hp1.trans hp2, ?_, fun f hf => ?_⟩
    · simp only [J.dropIdss, J.Ats]
      refine ⟨a', rs2, rfl, At_prefix hp2 hA1, Ats_agree (fun c hc => ?_) (fun _ _ _ h => h) _ _ hA2⟩
      exact Nat.le_trans hp1.length_le hc
    · obtain ⟨f, rfl⟩ : ∃ g, f = g + 1 := ⟨f - 1, by omega⟩
      simp only [deepCopysH, hf1 f (by omega), hf2 f (by omega)]

theorem copyf_ok : ∀ (kvs : List (Bytes × J)), (∀ k x, (k, x) ∈ kvs → CopyOk ord x) → ∀ (h : Heap) (rs : SMap Ref), J.Atf h (fun _ => True) kvs rs →
    ∃ f0 rs' h', h <+: h' ∧ J.Atf h' (fun b => h.length ≤ b) (J.dropIdsf kvs) rs' ∧
      ∀ f, f0 ≤ f → ∀ m, deepCopyfH ord f h rs m = .ok (rs'.foldl (fun m e => smAdd m e.1 e.2) m, h') := by
  intro kvs
  induction kvs with
  | nil =>
    intro _ h rs hr
    simp only [J.Atf] at hr; subst hr
    refine ⟨0, [], h, List.prefix_refl _, by simp [J.dropIdsf, J.Atf], fun f _ m => ?_⟩
    cases f <;> simp [deepCopyfH]
  | cons e kvs ih =>
    obtain ⟨k, x⟩ := e
    intro hx h rs hr
    simp only [J.Atf] at hr
    obtain ⟨b, rs', rfl, h1, h2⟩ := hr
    obtain ⟨f1, a', h1', hp1, hA1, hf1⟩ := hx k x (by simp) h b h1
    obtain ⟨f2, rs2, h2', hp2, hA2, hf2⟩ := ih (fun k y hy => hx k y (by simp [hy])) h1' rs' (Atf_agree (fun _ h => h) (fun _ _ _ ho => prefix_get hp1 ho) _ _ h2)
    refine ⟨max f1 f2 + 1, (k, some a') :: rs2, h2', hp1.trans hp2, ?_, fun f hf m => ?_⟩
    · simp only [J.dropIdsf, J.Atf]
      refine ⟨a', rs2, rfl, At_prefix hp2 hA1, Atf_agree (fun c hc => ?_) (fun _ _ _ h => h) _ _ hA2⟩
      exact Nat.le_trans hp1.length_le hc
    · obtain ⟨f, rfl⟩ : ∃ g, f = g + 1 := ⟨f - 1, by omega⟩
      simp only [deepCopyfH, hf1 f (by omega), hf2 f (by omega), List.foldl_cons]

theorem sorted_of_keys {α β} {m : SMap α} {m' : SMap β} (hk : m'.map (·.1) = m.map (·.1)) (h : SMap.Sorted m) : SMap.Sorted m' := by
  have e : ∀ {γ} (m : SMap γ), SMap.Sorted m ↔ (m.map (·.1)).Pairwise fun a b => blt a b = true := by
    intro γ m; unfold SMap.Sorted; rw [List.pairwise_map]
  rw [e] at h ⊢; rw [hk]; exact h

theorem foldl_smAdd_perm' {α} {m : SMap α} (hm : SMap.Sorted m) {l : List (Bytes × α)} (hp : l.Perm m) :
    l.foldl (fun m e => smAdd m e.1 e.2) [] = m := by
  have hnd : (m.map (·.1)).Nodup := sorted_keys_nodup hm
  have hnd' : (l.map (·.1)).Nodup := ((hp.map (·.1)).nodup_iff).2 hnd
  have he : ∀ k, lastValue l k = lastValue m k := by
    intro k
    apply Option.ext
    intro v
    rw [lastValue_eq_of_nodup l hnd', lastValue_eq_of_nodup m hnd]
    exact hp.mem_iff
  rw [foldl_smAdd_canonical l m he, foldl_smAdd_sorted m [] (by simpa using hm)]
  rfl

theorem Atf_some {h : Heap} {P : Addr → Prop} : ∀ {kvs : List (Bytes × J)} {rs : SMap Ref}, J.Atf h P kvs rs → ∀ {e}, e ∈ rs → ∃ b, e.2 = some b
  | [], rs, hr, e, he => by simp only [J.Atf] at hr; subst hr; simp at he
  | (k, x) :: kvs, rs, hr, e, he => by
    simp only [J.Atf] at hr
    obtain ⟨b, rs', rfl, _, h2⟩ := hr
    rcases List.mem_cons.1 he with rfl | he
    · exact ⟨b, rfl⟩
    · exact Atf_some h2 he

theorem copyOk_scalar {v : J} {o : Obj} (hAt : ∀ h P a, v.At h P a ↔ P a ∧ h[a]? = some o) (hd : v.dropIds = v)
    (hc : ∀ f (h : Heap) (a : Addr), h[a]? = some o → deepCopyH ord (f + 1) h (some a) = .ok (some h.length, h ++ [o])) : CopyOk ord v := by
  intro h a hA
  refine ⟨1, h.length, h ++ [o], List.prefix_append _ _, ?_, fun f hf => ?_⟩
  · rw [hd, hAt]; exact ⟨Nat.le_refl _, fresh_get⟩
  · obtain ⟨f, rfl⟩ : ∃ g, f = g + 1 := ⟨f - 1, by omega⟩
    exact hc f h a ((hAt _ _ _).1 hA).2

theorem copy_ok (hord : ∀ l, (ord l).Perm l) (v : J) : v.WF → v.NoPtr → CopyOk ord v := by
  induction v using J.ind with
  | ptr i => intro _ hp; simp [J.NoPtr] at hp
  | arr xs ih =>
    intro hw hn h a hA
    simp only [J.Seen, J.At] at hA
    obtain ⟨_, rs, h2, h3⟩ := hA
    simp only [J.WF] at hw
    simp only [J.NoPtr] at hn
    obtain ⟨f0, rs', h', hp, hA', hf⟩ := copys_ok xs (fun i x hx => ih i x hx (wfs_get hw hx) (noPtrs_get hn hx)) h rs h3
    refine ⟨f0 + 1, h'.length, h' ++ [.arr rs'], hp.trans (List.prefix_append _ _), ?_, fun f hf' => ?_⟩
    · simp only [J.dropIds, J.At]
      exact ⟨hp.length_le, rs', fresh_get, Ats_agree (fun _ h => h) (fun _ _ _ ho => prefix_get (List.prefix_append _ _) ho) _ _ hA'⟩
    · obtain ⟨f, rfl⟩ : ∃ g, f = g + 1 := ⟨f - 1, by omega⟩
      simp only [deepCopyH, h2, hf f (by omega), Heap.alloc]
  | dict id kvs ih =>
    intro hw hn h a hA
    simp only [J.Seen, J.At] at hA
    obtain ⟨_, rs, h2, h3⟩ := hA
    simp only [J.WF] at hw
    simp only [J.NoPtr] at hn
    obtain ⟨kvs2, hp2, hr2⟩ := Atf_perm (hord rs).symm kvs h3
    obtain ⟨f0, rs', h', hp, hA', hf⟩ := copyf_ok kvs2
      (fun k x hx => by
        have hx := hp2.mem_iff.2 hx
        exact ih k x hx (wff_mem hw.2 hx) (noPtrf_get hn hx)) h _ hr2
    have hp3 : (J.dropIdsf kvs2).Perm (J.dropIdsf kvs) := by
      rw [dropIdsf_map, dropIdsf_map]; exact (hp2.map _).symm
    obtain ⟨rs3, hp4, hA3⟩ := Atf_perm' hp3 rs' hA'
    have hk : rs3.map (·.1) = kvs.map (·.1) := by
      rw [Atf_keys _ _ hA3, dropIdsf_map]; simp
    have hm : rs'.foldl (fun m e => smAdd m e.1 e.2) [] = rs3 := foldl_smAdd_perm' (sorted_of_keys hk hw.1) hp4
    refine ⟨f0 + 1, h'.length, h' ++ [.dict 0 rs3], hp.trans (List.prefix_append _ _), ?_, fun f hf' => ?_⟩
    · simp only [J.dropIds, J.At]
      exact ⟨hp.length_le, rs3, fresh_get, Atf_agree (fun _ h => h) (fun _ _ _ ho => prefix_get (List.prefix_append _ _) ho) _ _ hA3⟩
    · obtain ⟨f, rfl⟩ : ∃ g, f = g + 1 := ⟨f - 1, by omega⟩
      have hne : nilEntry rs = false := by
        simp only [nilEntry, List.any_eq_false]
        intro e he
        obtain ⟨b, hb⟩ := Atf_some h3 he
        simp [hb]
      simp only [deepCopyH, h2, hne, Bool.false_eq_true, if_false, hf f (by omega), Heap.alloc, hm]
  | _ =>
    intro _ _
    refine copyOk_scalar (fun h P a => by simp only [J.At]; exact Iff.rfl) rfl fun f h a ho => ?_
    simp only [deepCopyH, ho, Heap.alloc]

/-! ### Histories of calls -/

/-- `K` contains the shared instances and everything not allocated yet, and no object of `K` refers out of `K`. -/
structure Closed (K : Addr → Prop) (h : Heap) : Prop where
  future : ∀ b, h.length ≤ b → K b
  refs : ∀ a o, K a → h[a]? = some o → ∀ b, some b ∈ o.refs → K b

/-- What one call may do: grow the heap, and change objects of `K` that are no shared instances; `K` stays closed. -/
structure HStepOk (K : Addr → Prop) (h h' : Heap) : Prop where
  grow : h.length ≤ h'.length
  keep : ∀ b, b < h.length → ¬ K b → h'[b]? = h[b]?
  imm : ∀ b : Addr, (h[b]? = some .null ∨ (∃ c, h[b]? = some (.bool c))) → h'[b]? = h[b]?
  closed : Closed K h'

theorem HStepOk.rfl' {K : Addr → Prop} {h : Heap} (hc : Closed K h) : HStepOk K h h :=
  ⟨Nat.le_refl _, fun _ _ _ => rfl, fun _ _ => rfl, hc⟩

theorem HStepOk.trans {K : Addr → Prop} {h h1 h2 : Heap} (a : HStepOk K h h1) (b : HStepOk K h1 h2) : HStepOk K h h2 := by
  refine ⟨Nat.le_trans a.grow b.grow, fun x hx hk => ?_, fun x hx => ?_, b.closed⟩
  · rw [b.keep x (Nat.lt_of_lt_of_le hx a.grow) hk, a.keep x hx hk]
  · rw [b.imm x (by rw [a.imm x hx]; exact hx), a.imm x hx]

theorem stepOk_set {K : Addr → Prop} {h : Heap} (hc : Closed K h) {d : Addr} (hd : K d) {o o' : Obj} (ho : h[d]? = some o)
    (hi : o ≠ .null ∧ ∀ c, o ≠ .bool c) (hr : ∀ b, some b ∈ o'.refs → K b) : HStepOk K h (h.set d o') := by
  have hlt : d < h.length := (List.getElem?_eq_some_iff.1 ho).1
  refine ⟨by simp, fun b hb hk => ?_, fun b hb => ?_, ⟨fun b hb => hc.future b (by simpa using hb), fun a x ha hx b hb => ?_⟩⟩
  · have : d ≠ b := fun e => hk (e ▸ hd)
    rw [List.getElem?_set]; simp [this]
  · have : d ≠ b := by
      rintro rfl
      rcases hb with hb | ⟨c, hb⟩ <;> rw [ho] at hb <;> cases hb
      · exact hi.1 rfl
      · exact hi.2 _ rfl
    rw [List.getElem?_set]; simp [this]
  · rw [List.getElem?_set] at hx
    split at hx
    · simp at hx; subst hx; exact hr b hb
    · exact hc.refs a x ha hx b hb

theorem stepOk_alloc {K : Addr → Prop} {h : Heap} (hc : Closed K h) {o : Obj} (hr : ∀ b, some b ∈ o.refs → K b) :
    HStepOk K h (h ++ [o]) := by
  refine ⟨by simp, fun b hb _ => List.getElem?_append_left hb, fun b hb => ?_, ⟨fun b hb => hc.future b (by simp at hb; omega), fun a x ha hx b hb => ?_⟩⟩
  · apply List.getElem?_append_left
    rcases hb with hb | ⟨c, hb⟩ <;> exact (List.getElem?_eq_some_iff.1 hb).1
  · rw [List.getElem?_append] at hx
    split at hx
    · exact hc.refs a x ha hx b hb
    · simp only [List.getElem?_singleton] at hx
      split at hx
      · cases hx; exact hr b hb
      · cases hx

theorem mem_smAdd_refs {m : SMap Ref} {k : Bytes} {v r : Ref} (h : r ∈ (smAdd m k v).map (·.2)) : r = v ∨ r ∈ m.map (·.2) := by
  induction m with
  | nil => simp [smAdd] at h; exact Or.inl h
  | cons e m ih =>
    obtain ⟨k', v'⟩ := e
    simp only [smAdd] at h
    split at h
    · rw [List.map_cons] at h
      rcases List.mem_cons.1 h with h | h
      · right; simp [h]
      · rcases ih h with h | h
        · exact Or.inl h
        · right; rw [List.map_cons]; exact List.mem_cons_of_mem _ h
    · split at h
      · rw [List.map_cons] at h
        rcases List.mem_cons.1 h with h | h
        · exact Or.inl h
        · right; rw [List.map_cons]; exact List.mem_cons_of_mem _ h
      · rw [List.map_cons] at h
        rcases List.mem_cons.1 h with h | h
        · exact Or.inl h
        · exact Or.inr h

theorem mem_foldl_smAdd_refs {l : List (Bytes × Ref)} : ∀ {m : SMap Ref} {r : Ref}, r ∈ (l.foldl (fun m e => smAdd m e.1 e.2) m).map (·.2) →
    r ∈ l.map (·.2) ∨ r ∈ m.map (·.2) := by
  induction l with
  | nil => intro m r h; exact Or.inr h
  | cons e l ih =>
    intro m r h
    rcases ih h with h | h
    · left; rw [List.map_cons]; exact List.mem_cons_of_mem _ h
    · rcases mem_smAdd_refs h with h | h
      · left; simp [h]
      · exact Or.inr h

theorem mem_smDelete_refs {m : SMap Ref} {k : Bytes} {r : Ref} (h : r ∈ (smDelete m k).1.map (·.2)) : r ∈ m.map (·.2) := by
  induction m with
  | nil => exact h
  | cons e m ih =>
    obtain ⟨k', v'⟩ := e
    simp only [smDelete] at h
    split at h
    · rw [List.map_cons]; exact List.mem_cons_of_mem _ h
    · simp only [List.map_cons] at h ⊢
      rcases List.mem_cons.1 h with h | h
      · rw [h]; simp
      · exact List.mem_cons_of_mem _ (ih h)

theorem smGet_mem_refs {m : SMap Ref} {k : Bytes} {r : Ref} (h : smGet m k = some r) : r ∈ m.map (·.2) := by
  induction m with
  | nil => cases h
  | cons e m ih =>
    obtain ⟨k', v'⟩ := e
    simp only [smGet] at h
    split at h
    · cases h; simp
    · rw [List.map_cons]; exact List.mem_cons_of_mem _ (ih h)

theorem addH_ok {K : Addr → Prop} (o : Ref) (ho : ∀ b, o = some b → K b) : ∀ (path : List Bytes) (h : Heap) (d : Addr), Closed K h → K d →
    ∀ r, addH h d o path = some r → HStepOk K h r.2 := by
  intro path
  induction path with
  | nil => intro h d hc hd r hr; simp only [addH] at hr; cases hr; exact .rfl' hc
  | cons k ks ih =>
    intro h d hc hd r hr
    cases ks with
    | nil =>
      simp only [addH, setH] at hr
      split at hr
      · rename_i id kvs hdict
        simp only [Option.map_some, Option.some.injEq] at hr
        subst hr
        refine stepOk_set hc hd hdict (by simp) fun b hb => ?_
        rcases mem_smAdd_refs hb with h | h
        · exact ho b h.symm
        · exact hc.refs d _ hd hdict b h
      · simp at hr
    | cons k2 ks =>
      rw [addH.eq_def] at hr
      simp only at hr
      split at hr
      · rename_i id kvs hdict
        have fresh_case : ∀ r, addH ((h ++ [Obj.dict 0 []]).set d (.dict id (smAdd kvs k (some h.length)))) h.length o (k2 :: ks) = some r → HStepOk K h r.2 := by
          intro r hr
          have s1 : HStepOk K h (h ++ [.dict 0 []]) := stepOk_alloc hc (by simp [Obj.refs])
          have hd2 : (h ++ [Obj.dict 0 []])[d]? = some (.dict id kvs) := by
            rw [List.getElem?_append_left (List.getElem?_eq_some_iff.1 hdict).1]; exact hdict
          have kl : K h.length := hc.future _ (Nat.le_refl _)
          have s2 : HStepOk K (h ++ [.dict 0 []]) ((h ++ [Obj.dict 0 []]).set d (.dict id (smAdd kvs k (some h.length)))) := by
            refine stepOk_set s1.closed hd hd2 (by simp) fun b hb => ?_
            rcases mem_smAdd_refs hb with h | h
            · cases h; exact kl
            · exact hc.refs d _ hd hdict b h
          exact (s1.trans s2).trans (ih _ _ s2.closed kl r hr)
        cases hg : smGet kvs k with
        | none => simp only [hg, if_true, Heap.alloc] at hr; exact fresh_case r hr
        | some q =>
          simp only [hg] at hr
          split at hr
          · exact fresh_case r hr
          · cases q with
            | none => cases hr; exact .rfl' hc
            | some b =>
              have kb : K b := hc.refs d _ hd hdict b (smGet_mem_refs hg)
              simp only at hr
              split at hr
              · exact ih h b hc kb r hr
              · cases hr; exact .rfl' hc
      · cases hr

theorem deepCopyAll_ok {K : Addr → Prop} (hord : ∀ l, (ord l).Perm l) : ∀ (f : Nat),
    (∀ h r, Closed K h → (∀ b, r = some b → K b) → ∀ y h', deepCopyH ord f h r = .ok (y, h') → HStepOk K h h' ∧ ∀ b, y = some b → K b) ∧
    (∀ h rs, Closed K h → (∀ b, some b ∈ rs → K b) → ∀ ys h', deepCopysH ord f h rs = .ok (ys, h') → HStepOk K h h' ∧ ∀ b, some b ∈ ys → K b) ∧
    (∀ h rs m, Closed K h → (∀ b, some b ∈ rs.map (·.2) → K b) → (∀ b, some b ∈ m.map (·.2) → K b) → ∀ m' h', deepCopyfH ord f h rs m = .ok (m', h') →
      HStepOk K h h' ∧ ∀ b, some b ∈ m'.map (·.2) → K b) := by
  intro f
  induction f with
  | zero =>
    refine ⟨fun h r hc hr y h' he => ?_, fun h rs hc hr ys h' he => ?_, fun h rs m hc hr hm m' h' he => ?_⟩
    · cases r with
      | none => simp [deepCopyH] at he; obtain ⟨rfl, rfl⟩ := he; exact ⟨.rfl' hc, by simp⟩
      | some a => simp [deepCopyH] at he
    · cases rs with
      | nil => simp [deepCopysH] at he; obtain ⟨rfl, rfl⟩ := he; exact ⟨.rfl' hc, by simp⟩
      | cons a t => simp [deepCopysH] at he
    · cases rs with
      | nil => simp [deepCopyfH] at he; obtain ⟨rfl, rfl⟩ := he; exact ⟨.rfl' hc, hm⟩
      | cons a t => simp [deepCopyfH] at he
  | succ f ih =>
    obtain ⟨ih1, ih2, ih3⟩ := ih
    have fresh : ∀ {h : Heap}, Closed K h → K h.length := fun hc => hc.future _ (Nat.le_refl _)
    refine ⟨fun h r hc hr y h' he => ?_, fun h rs hc hr ys h' he => ?_, fun h rs m hc hr hm m' h' he => ?_⟩
    · cases r with
      | none => simp [deepCopyH] at he; obtain ⟨rfl, rfl⟩ := he; exact ⟨.rfl' hc, by simp⟩
      | some a =>
        rw [deepCopyH.eq_def] at he
        simp only at he
        split at he
        · cases he; exact ⟨.rfl' hc, by simp⟩
        · rename_i xs hx
          split at he
          · rename_i ys h1 hys
            simp only [Heap.alloc, CRes.ok.injEq, Prod.mk.injEq] at he
            obtain ⟨rfl, rfl⟩ := he
            obtain ⟨s1, k1⟩ := ih2 h xs hc (fun b hb => hc.refs a _ (hr a rfl) hx b hb) ys h1 hys
            exact ⟨s1.trans (stepOk_alloc s1.closed k1), fun b hb => by cases hb; exact fresh s1.closed⟩
          · cases he
          · cases he
        · rename_i id kvs hx
          split at he
          · cases he
          split at he
          · rename_i m h1 hys
            simp only [Heap.alloc, CRes.ok.injEq, Prod.mk.injEq] at he
            obtain ⟨rfl, rfl⟩ := he
            obtain ⟨s1, k1⟩ := ih3 h (ord kvs) [] hc
              (fun b hb => hc.refs a _ (hr a rfl) hx b (((hord kvs).map (·.2)).mem_iff.1 hb)) (by simp) m h1 hys
            exact ⟨s1.trans (stepOk_alloc s1.closed k1), fun b hb => by cases hb; exact fresh s1.closed⟩
          · cases he
          · cases he
        · cases he; exact ⟨.rfl' hc, by simp⟩
        · rename_i o _ _ _ ho
          simp only [Heap.alloc, CRes.ok.injEq, Prod.mk.injEq] at he
          obtain ⟨rfl, rfl⟩ := he
          exact ⟨stepOk_alloc hc (fun b hb => hc.refs a _ (hr a rfl) ho b hb), fun b hb => by cases hb; exact fresh hc⟩
    · cases rs with
      | nil => simp [deepCopysH] at he; obtain ⟨rfl, rfl⟩ := he; exact ⟨.rfl' hc, by simp⟩
      | cons x xs =>
        simp only [deepCopysH] at he
        split at he
        case h_2 => cases he
        case h_3 => cases he
        · rename_i y h1 hy
          split at he
          case h_2 => cases he
          case h_3 => cases he
          · rename_i ys2 h2 hys
            simp only [CRes.ok.injEq, Prod.mk.injEq] at he
            obtain ⟨rfl, rfl⟩ := he
            obtain ⟨s1, k1⟩ := ih1 h x hc (fun b hb => hr b (by simp [hb])) y h1 hy
            obtain ⟨s2, k2⟩ := ih2 h1 xs s1.closed (fun b hb => hr b (by simp [hb])) ys2 h2 hys
            refine ⟨s1.trans s2, fun b hb => ?_⟩
            rcases List.mem_cons.1 hb with hb | hb
            · exact k1 b hb.symm
            · exact k2 b hb
    · cases rs with
      | nil => simp [deepCopyfH] at he; obtain ⟨rfl, rfl⟩ := he; exact ⟨.rfl' hc, hm⟩
      | cons e xs =>
        obtain ⟨k, x⟩ := e
        simp only [deepCopyfH] at he
        split at he
        case h_2 => cases he
        case h_3 => cases he
        · rename_i y h1 hy
          obtain ⟨s1, k1⟩ := ih1 h x hc (fun b hb => hr b (by simp [hb])) y h1 hy
          obtain ⟨s2, k2⟩ := ih3 h1 xs (smAdd m k y) s1.closed (fun b hb => hr b (by rw [List.map_cons]; exact List.mem_cons_of_mem _ hb))
            (fun b hb => by
              rcases mem_smAdd_refs hb with h | h
              · exact k1 b h.symm
              · exact hm b h) m' h' he
          exact ⟨s1.trans s2, k2⟩

/-- Every iteration order used by the calls is a permutation. -/
def OrdersOk (cs : List Call) : Prop := ∀ c ∈ cs, ∀ ord f r, c = .deepCopy ord f r → ∀ l, (ord l).Perm l

theorem run_ok {K : Addr → Prop} {h : Heap} (hc : Closed K h) (c : Call) (ha : ∀ b, some b ∈ c.args → K b)
    (ho : ∀ ord f r, c = .deepCopy ord f r → ∀ l, (ord l).Perm l) : HStepOk K h (c.run h) := by
  cases c with
  | new o => exact stepOk_alloc hc ha
  | set d k v =>
    simp only [Call.run, setH]
    split
    · rename_i id kvs hd
      refine stepOk_set hc (ha d (by simp [Call.args])) hd (by simp) fun b hb => ?_
      rcases mem_smAdd_refs hb with h | h
      · exact ha b (by simp [Call.args, h])
      · exact hc.refs d _ (ha d (by simp [Call.args])) hd b h
    · exact .rfl' hc
  | remove d k =>
    simp only [Call.run, removeH]
    cases hd : h[d]? with
    | none => exact .rfl' hc
    | some o =>
      cases o with
      | dict id kvs =>
        refine stepOk_set hc (ha d (by simp [Call.args])) hd (by simp) fun b hb => ?_
        exact hc.refs d _ (ha d (by simp [Call.args])) hd b (mem_smDelete_refs hb)
      | _ => exact .rfl' hc
  | setAt d i v =>
    simp only [Call.run, setAtH]
    split
    · rename_i xs hd
      split
      · refine stepOk_set hc (ha d (by simp [Call.args])) hd (by simp) fun b hb => ?_
        rcases List.mem_or_eq_of_mem_set hb with h | h
        · exact hc.refs d _ (ha d (by simp [Call.args])) hd b h
        · exact ha b (by simp [Call.args, h])
      · exact .rfl' hc
    · exact .rfl' hc
  | append d vs =>
    simp only [Call.run, arrAddH]
    split
    · rename_i xs hd
      refine stepOk_set hc (ha d (by simp [Call.args])) hd (by simp) fun b hb => ?_
      rcases List.mem_append.1 hb with h | h
      · exact hc.refs d _ (ha d (by simp [Call.args])) hd b h
      · exact ha b (by simp [Call.args, h])
    · exact .rfl' hc
  | add d v path =>
    simp only [Call.run]
    cases hr : addH h d v path with
    | none => exact .rfl' hc
    | some r => exact addH_ok v (fun b hb => ha b (by simp [Call.args, hb])) path h d hc (ha d (by simp [Call.args])) r hr
  | update d o =>
    simp only [Call.run, updateH]
    split
    · rename_i id kvs id2 kvs2 hd hd2
      refine stepOk_set hc (ha d (by simp [Call.args])) hd (by simp) fun b hb => ?_
      rcases mem_foldl_smAdd_refs hb with h | h
      · exact hc.refs o _ (ha o (by simp [Call.args])) hd2 b h
      · exact hc.refs d _ (ha d (by simp [Call.args])) hd b h
    · exact .rfl' hc
    · exact .rfl' hc
  | floatText d =>
    simp only [Call.run, floatTextH]
    split
    · rename_i x bit hd
      exact stepOk_set hc (ha d (by simp [Call.args])) hd (by simp) (by simp [Obj.refs])
    · exact .rfl' hc
  | copyExcludes d ks =>
    simp only [Call.run, copyExcludesH]
    cases hd : h[d]? with
    | none => exact .rfl' hc
    | some o =>
      cases o with
      | dict id kvs =>
        by_cases hn : nilEntry (kvs.filter fun e => !ks.contains e.1) = true
        · simp only [hn, if_true]; exact .rfl' hc
        simp only [hn, Bool.false_eq_true, if_false]
        refine stepOk_alloc hc fun b hb => ?_
        have : ∀ (l : SMap Ref) (m : SMap Ref) r, r ∈ (l.foldl (fun m kv => if ks.contains kv.1 then m else smAdd m kv.1 kv.2) m).map (·.2) →
            r ∈ l.map (·.2) ∨ r ∈ m.map (·.2) := by
          intro l
          induction l with
          | nil => intro m r h; exact Or.inr h
          | cons e l ih =>
            intro m r h
            rw [List.foldl_cons] at h
            rcases ih _ r h with h | h
            · left; rw [List.map_cons]; exact List.mem_cons_of_mem _ h
            · split at h
              · exact Or.inr h
              · rcases mem_smAdd_refs h with h | h
                · left; simp [h]
                · exact Or.inr h
        rcases this kvs [] _ hb with h | h
        · exact hc.refs d _ (ha d (by simp [Call.args])) hd b h
        · simp at h
      | _ => exact .rfl' hc
  | arrCopy d =>
    simp only [Call.run, arrCopyH]
    cases hd : h[d]? with
    | none => exact .rfl' hc
    | some o =>
      cases o with
      | arr xs => exact stepOk_alloc hc fun b hb => hc.refs d _ (ha d (by simp [Call.args])) hd b hb
      | _ => exact .rfl' hc
  | deepCopy ord f r =>
    simp only [Call.run]
    cases hr : deepCopyH ord f h r with
    | panic => exact .rfl' hc
    | fuel => exact .rfl' hc
    | ok y => exact ((deepCopyAll_ok (ho ord f r rfl) f).1 h r hc (fun b hb => ha b (by simp [Call.args, hb])) y.1 y.2 hr).1

theorem runCalls_ok {K : Addr → Prop} : ∀ (cs : List Call) (h : Heap), Closed K h → Mentions K cs → OrdersOk cs → HStepOk K h (runCalls h cs) := by
  intro cs
  induction cs with
  | nil => intro h hc _ _; exact .rfl' hc
  | cons c cs ih =>
    intro h hc hm ho
    have s := run_ok hc c (hm c (by simp)) (ho c (by simp))
    exact s.trans (ih _ s.closed (fun c' hc' => hm c' (by simp [hc'])) (fun c' hc' => ho c' (by simp [hc'])))

end Jsonutils
