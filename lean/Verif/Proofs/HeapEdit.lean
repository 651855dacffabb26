import Verif.Spec.HeapEdit
import Verif.Proofs.HeapRead
import Verif.Proofs.HeapDict

/-! # Editing a part of a document in memory -/

namespace Jsonutils

theorem Way.reach {h : Heap} {a d : Addr} {p : List Move} (hw : Way h a p d) : Reach h a d := by
  induction hw with
  | here a => exact .refl a
  | key h1 h2 _ ih => exact .step h1 (by simp only [Obj.refs]; exact List.mem_map.2 ⟨_, h2, rfl⟩) ih
  | elem h1 h2 _ ih => exact .step h1 (by simp only [Obj.refs]; exact List.mem_of_getElem? h2) ih

theorem Reach.way {h : Heap} {a d : Addr} (hr : Reach h a d) : ∃ p, Way h a p d := by
  induction hr with
  | refl a => exact ⟨[], .here a⟩
  | @step a b c o h1 h2 _ ih =>
    obtain ⟨p, hp⟩ := ih
    cases o with
    | arr rs =>
      simp only [Obj.refs] at h2
      obtain ⟨i, hi⟩ := List.mem_iff_getElem?.1 h2
      exact ⟨_, .elem h1 hi hp⟩
    | dict id kvs =>
      simp only [Obj.refs] at h2
      obtain ⟨⟨k, r⟩, he, hr⟩ := List.mem_map.1 h2
      simp only at hr; subst hr
      exact ⟨_, .key h1 he hp⟩
    | _ => simp [Obj.refs] at h2

theorem Way.append {h : Heap} {a b d : Addr} {p q : List Move} (h1 : Way h a p b) (h2 : Way h b q d) : Way h a (p ++ q) d := by
  induction h1 with
  | here a => exact h2
  | key g1 g2 _ ih => exact .key g1 g2 (ih h2)
  | elem g1 g2 _ ih => exact .elem g1 g2 (ih h2)

theorem way_self {h : Heap} {v : J} {a : Addr} (hv : v.Seen h a) {p : List Move} (hw : Way h a p a) : p = [] := by
  cases hw with
  | here => rfl
  | key h1 h2 h3 => exact absurd h3.reach (no_cycle hv h1 (by simp only [Obj.refs]; exact List.mem_map.2 ⟨_, h2, rfl⟩))
  | elem h1 h2 h3 => exact absurd h3.reach (no_cycle hv h1 (by simp only [Obj.refs]; exact List.mem_of_getElem? h2))

theorem SameNode.rfl' (x : J) : SameNode x x := by
  cases x <;> simp [SameNode]

theorem edits_exist {h h' : Heap} {d : Addr} {w : J} : ∀ (xs : List J) (rs : List Ref), J.Ats h (fun _ => True) xs rs →
    (∀ (i : Nat) x, xs[i]? = some x → ∀ b, x.Seen h b → ∃ y, J.Seen h' y b ∧ Edited h d w b x y) →
    ∃ ys, J.Ats h' (fun _ => True) ys rs ∧ ys.length = xs.length ∧
      ∀ (i : Nat) x, xs[i]? = some x → ∃ b y, rs[i]? = some (some b) ∧ ys[i]? = some y ∧ Edited h d w b x y := by
  intro xs
  induction xs with
  | nil => intro rs hr _; exact ⟨[], hr, rfl, by simp⟩
  | cons x xs ih =>
    intro rs hr hx
    simp only [J.Ats] at hr
    obtain ⟨b, rs', rfl, h1, h2⟩ := hr
    obtain ⟨y, hy, he⟩ := hx 0 x rfl b h1
    obtain ⟨ys, g1, g2, g3⟩ := ih rs' h2 fun i z hz => hx (i + 1) z hz
    refine ⟨y :: ys, ?_, by simp [g2], fun i z hz => ?_⟩
    · simp only [J.Ats]; exact ⟨b, rs', rfl, hy, g1⟩
    · cases i with
      | zero => cases hz; exact ⟨b, y, rfl, rfl, he⟩
      | succ i => exact g3 i z hz

theorem editf_exist {h h' : Heap} {d : Addr} {w : J} : ∀ (xs : List (Bytes × J)) (rs : SMap Ref), J.Atf h (fun _ => True) xs rs →
    (∀ k x, (k, x) ∈ xs → ∀ b, x.Seen h b → ∃ y, J.Seen h' y b ∧ Edited h d w b x y) →
    ∃ ys, J.Atf h' (fun _ => True) ys rs ∧ ys.map (·.1) = xs.map (·.1) ∧
      (∀ k x, (k, x) ∈ xs → ∃ b y, (k, some b) ∈ rs ∧ (k, y) ∈ ys ∧ Edited h d w b x y) ∧
      (∀ k b, (k, some b) ∈ rs → ∃ x y, (k, x) ∈ xs ∧ (k, y) ∈ ys ∧ Edited h d w b x y) := by
  intro xs
  induction xs with
  | nil =>
    intro rs hr _
    simp only [J.Atf] at hr; subst hr
    exact ⟨[], rfl, rfl, by simp, by simp⟩
  | cons e xs ih =>
    obtain ⟨k, x⟩ := e
    intro rs hr hx
    simp only [J.Atf] at hr
    obtain ⟨b, rs', rfl, h1, h2⟩ := hr
    obtain ⟨y, hy, he⟩ := hx k x (by simp) b h1
    obtain ⟨ys, g1, g2, g3, g4⟩ := ih rs' h2 fun k z hz => hx k z (by simp [hz])
    refine ⟨(k, y) :: ys, ?_, by simp [g2], fun k' z hz => ?_, fun k' c hc => ?_⟩
    · simp only [J.Atf]; exact ⟨b, rs', rfl, hy, g1⟩
    · rcases List.mem_cons.1 hz with hz | hz
      · cases hz; exact ⟨b, y, by simp, by simp, he⟩
      · obtain ⟨b', y', i1, i2, i3⟩ := g3 k' z hz
        exact ⟨b', y', by simp [i1], by simp [i2], i3⟩
    · rcases List.mem_cons.1 hc with hc | hc
      · cases hc; exact ⟨x, y, by simp, by simp, he⟩
      · obtain ⟨x', y', i1, i2, i3⟩ := g4 k' c hc
        exact ⟨x', y', by simp [i1], by simp [i2], i3⟩

theorem edited_leaf {h : Heap} {d a : Addr} {w v : J} {o : Obj} (ha : a ≠ d) (ho : h[a]? = some o) (hr : o.refs = []) : Edited h d w a v v := by
  refine ⟨fun p hp => ?_, fun p x hx _ _ => hx, fun p x hx _ => ⟨x, hx, SameNode.rfl' x⟩⟩
  cases hp with
  | here => exact absurd rfl ha
  | key h1 h2 _ => rw [h1] at ho; cases ho; simp [Obj.refs] at hr; subst hr; simp at h2
  | elem h1 h2 _ => rw [h1] at ho; cases ho; simp [Obj.refs] at hr; subst hr; simp at h2

/-- Every document, after the object `d` has been overwritten. -/
theorem edit_exists {h h' : Heap} {d : Addr} {w : J} (hk : ∀ y, y < h.length → y ≠ d → h'[y]? = h[y]?) (hw : w.Seen h' d) (v : J) :
    ∀ a, v.Seen h a → ∃ v', J.Seen h' v' a ∧ Edited h d w a v v' := by
  have self : ∀ (v : J) a, v.Seen h a → a = d → ∃ v', J.Seen h' v' a ∧ Edited h d w a v v' := by
    intro v a hv had
    subst had
    refine ⟨w, hw, fun p hp => ?_, fun p x hx hn _ => ?_, fun p x hx hn => ?_⟩
    · rw [way_self hv hp]; exact .here w
    · exact absurd (.here a) (hn [] p rfl)
    · exact absurd (.here a) (hn [] p rfl)
  have get : ∀ (a : Addr) o, h[a]? = some o → a ≠ d → h'[a]? = some o := by
    intro a o ho hne
    rw [hk a (List.getElem?_eq_some_iff.1 ho).1 hne]; exact ho
  have untouched : ∀ (v v' : J) a, v.Seen h a → v'.Seen h' a → (∀ q, ¬ Way h a ([] ++ q) d) → v' = v := by
    intro v v' a hv hv' hn
    refine Seen_fun v' v a hv' (Seen_keep hv fun b hb hr => hk b hb fun e => ?_)
    subst e
    obtain ⟨q, hq⟩ := hr.way
    exact hn q hq
  induction v using J.ind with
  | arr xs ih =>
    intro a hv
    by_cases had : a = d
    · exact self _ a hv had
    · have hv0 := hv
      simp only [J.Seen, J.At] at hv
      obtain ⟨_, rs, h2, h3⟩ := hv
      obtain ⟨ys, g1, g2, g3⟩ := edits_exist (h' := h') (d := d) (w := w) xs rs h3 ih
      have hs' : (J.arr ys).Seen h' a := by
        simp only [J.Seen, J.At]; exact ⟨trivial, rs, get a _ h2 had, g1⟩
      refine ⟨.arr ys, hs', ?_, ?_, ?_⟩
      · intro p hp
        cases hp with
        | here => exact absurd rfl had
        | key h1 => rw [h1] at h2; cases h2
        | @elem _ b _ rs' i p e1 e2 e3 =>
          rw [e1] at h2; cases h2
          have hl := Ats_length xs _ h3
          have hi : i < xs.length := by rw [← hl]; exact (List.getElem?_eq_some_iff.1 e2).1
          obtain ⟨b', y, f1, f2, f3⟩ := g3 i xs[i] (List.getElem?_eq_getElem hi)
          rw [e2] at f1; cases f1
          exact .elem f2 (f3.inside p e3)
      · intro p x hx hn1 hn2
        cases hx with
        | here =>
          rw [untouched _ _ a hv0 hs' hn2]
          exact .here _
        | @elem _ i x y p e1 e2 =>
          obtain ⟨b, y', f1, f2, f3⟩ := g3 i x e1
          exact .elem f2 (f3.apart p _ e2 (fun q r hqr hq => hn1 (.elem i :: q) r (by simp [hqr]) (.elem h2 f1 hq))
            fun q hq => hn2 q (.elem h2 f1 hq))
      · intro p x hx hn1
        cases hx with
        | here => exact ⟨_, .here _, by simp only [SameNode]; exact g2.symm⟩
        | @elem _ i x y p e1 e2 =>
          obtain ⟨b, y', f1, f2, f3⟩ := g3 i x e1
          obtain ⟨z, z1, z2⟩ := f3.around p _ e2 (fun q r hqr hq => hn1 (.elem i :: q) r (by simp [hqr]) (.elem h2 f1 hq))
          exact ⟨z, .elem f2 z1, z2⟩
  | dict id xs ih =>
    intro a hv
    by_cases had : a = d
    · exact self _ a hv had
    · have hv0 := hv
      simp only [J.Seen, J.At] at hv
      obtain ⟨_, rs, h2, h3⟩ := hv
      obtain ⟨ys, g1, g2, g3, g4⟩ := editf_exist (h' := h') (d := d) (w := w) xs rs h3 ih
      have hs' : (J.dict id ys).Seen h' a := by
        simp only [J.Seen, J.At]; exact ⟨trivial, rs, get a _ h2 had, g1⟩
      refine ⟨.dict id ys, hs', ?_, ?_, ?_⟩
      · intro p hp
        cases hp with
        | here => exact absurd rfl had
        | elem h1 => rw [h1] at h2; cases h2
        | @key _ b _ i' rs' k p e1 e2 e3 =>
          rw [e1] at h2; cases h2
          obtain ⟨x, y, f1, f2, f3⟩ := g4 k b e2
          exact .key f2 (f3.inside p e3)
      · intro p x hx hn1 hn2
        cases hx with
        | here =>
          rw [untouched _ _ a hv0 hs' hn2]
          exact .here _
        | @key _ _ k x y p e1 e2 =>
          obtain ⟨b, y', f1, f2, f3⟩ := g3 k x e1
          exact .key f2 (f3.apart p _ e2 (fun q r hqr hq => hn1 (.key k :: q) r (by simp [hqr]) (.key h2 f1 hq))
            fun q hq => hn2 q (.key h2 f1 hq))
      · intro p x hx hn1
        cases hx with
        | here => exact ⟨_, .here _, by simp only [SameNode]; exact ⟨trivial, g2.symm⟩⟩
        | @key _ _ k x y p e1 e2 =>
          obtain ⟨b, y', f1, f2, f3⟩ := g3 k x e1
          obtain ⟨z, z1, z2⟩ := f3.around p _ e2 (fun q r hqr hq => hn1 (.key k :: q) r (by simp [hqr]) (.key h2 f1 hq))
          exact ⟨z, .key f2 z1, z2⟩
  | _ =>
    intro a hv
    by_cases had : a = d
    · exact self _ a hv had
    · have hv0 := hv
      simp only [J.Seen, J.At] at hv
      refine ⟨_, ?_, edited_leaf had hv.2 rfl⟩
      simp only [J.Seen, J.At]
      exact ⟨trivial, get a _ hv.2 had⟩

theorem Leads.way {h : Heap} {a : Addr} {keys : List Bytes} {r : Ref} (hl : Leads h a keys r) : ∀ {b}, r = some b → Way h a (keys.map .key) b := by
  induction hl with
  | last h1 h2 => intro b hb; subst hb; exact .key h1 h2 (.here b)
  | step h1 h2 _ ih => intro b hb; exact .key h1 h2 (ih hb)

/-- A call that changes `d` changes no other object. -/
theorem target_keep {h : Heap} {c : Call} {d : Addr} (hc : c.target = some d) : ∀ y, y ≠ d → (c.run h)[y]? = h[y]? := by
  intro y hy
  have set : ∀ o, (h.set d o)[y]? = h[y]? := fun o => set_get_ne o hy
  cases c <;> simp only [Call.target, Option.some.injEq, reduceCtorEq] at hc <;> subst hc
  case set k v =>
    simp only [Call.run, setH]
    split
    · exact set _
    · rfl
  case remove k =>
    simp only [Call.run, removeH]
    split
    · rename_i r hr
      split at hr
      · cases hr; exact set _
      · cases hr
    · rfl
  case setAt i v =>
    simp only [Call.run, setAtH]
    split
    · split
      · exact set _
      · rfl
    · rfl
  case append vs =>
    simp only [Call.run, arrAddH]
    split
    · exact set _
    · rfl
  case update o =>
    simp only [Call.run, updateH]
    split
    · exact set _
    · rfl
    · rfl
  case floatText =>
    simp only [Call.run, floatTextH]
    split
    · exact set _
    · rfl

/-- How `Add` proceeds below the first of several keys. -/
theorem addH_step {h : Heap} {d : Addr} {id : Int} {rs : SMap Ref} (ho : h[d]? = some (.dict id rs)) (o : Ref) (k k2 : Bytes) (ks : List Bytes) :
    ((smGet rs k = none ∨ smGet rs k = some (some nullAddr)) ∧ addH h d o (k :: k2 :: ks) =
      addH ((h ++ [Obj.dict 0 []]).set d (.dict id (smAdd rs k (some h.length)))) h.length o (k2 :: ks)) ∨
    (∃ b, smGet rs k = some (some b) ∧ DictAt h b ∧ addH h d o (k :: k2 :: ks) = addH h b o (k2 :: ks)) ∨
    (∃ r, smGet rs k = some r ∧ r ≠ some nullAddr ∧ ¬ IsDict h r ∧ addH h d o (k :: k2 :: ks) = some (some .invalidDict, h)) := by
  rw [addH.eq_def]
  simp only [ho, Heap.alloc]
  cases hg : smGet rs k with
  | none => left; exact ⟨Or.inl rfl, by simp⟩
  | some r =>
    by_cases hr : r = some nullAddr
    · subst hr; left; exact ⟨Or.inr rfl, by simp⟩
    · right
      have hb : ((r == some nullAddr) = false) := by simpa using hr
      simp only [hb]
      cases r with
      | none => right; exact ⟨none, rfl, hr, (by rintro ⟨b, _, _, h1, _⟩; cases h1), by simp⟩
      | some b =>
        cases hbo : h[b]? with
        | none =>
          right; refine ⟨some b, rfl, hr, ?_, by simp [hbo]⟩
          rintro ⟨b', _, _, h1, h2⟩; cases h1; rw [hbo] at h2; cases h2
        | some ob =>
          cases ob with
          | dict i m => left; exact ⟨b, rfl, ⟨i, m, hbo⟩, by simp [hbo]⟩
          | _ =>
            right; refine ⟨some b, rfl, hr, ?_, by simp [hbo]⟩
            rintro ⟨b', _, _, h1, h2⟩; cases h1; rw [hbo] at h2; cases h2

theorem fresh_facts {h : Heap} {d : Addr} {id : Int} {rs : SMap Ref} (ho : h[d]? = some (.dict id rs)) (k : Bytes) (ht : h.Tidy) :
    let h1 : Heap := (h ++ [Obj.dict 0 []]).set d (.dict id (smAdd rs k (some h.length)))
    h1.length = h.length + 1 ∧ h1[h.length]? = some (.dict 0 []) ∧ h1[d]? = some (.dict id (smAdd rs k (some h.length))) ∧
      (∀ y, y < h.length → y ≠ d → h1[y]? = h[y]?) ∧ h1.Tidy := by
  intro h1
  have hlt : d < h.length := (List.getElem?_eq_some_iff.1 ho).1
  have e1 : h1[h.length]? = some (.dict 0 []) := by
    simp only [h1]; rw [set_get_ne _ (Nat.ne_of_gt hlt)]; exact fresh_get
  have e2 : h1[d]? = some (.dict id (smAdd rs k (some h.length))) := by
    simp only [h1]; exact set_get (o' := .dict id rs) (by rw [List.getElem?_append_left hlt]; exact ho)
  have e3 : ∀ y, y < h.length → y ≠ d → h1[y]? = h[y]? := by
    intro y hy hne; simp only [h1]; rw [set_get_ne _ hne, List.getElem?_append_left hy]
  have el : h1.length = h.length + 1 := by simp [h1]
  refine ⟨el, e1, e2, e3, fun a i m ha => ?_⟩
  by_cases had : a = d
  · subst had; rw [e2] at ha; cases ha; exact sorted_smAdd (ht _ _ _ ho) _ _
  · by_cases hal : a < h.length
    · rw [e3 a hal had] at ha; exact ht _ _ _ ha
    · have : a < h1.length := (List.getElem?_eq_some_iff.1 ha).1
      have : a = h.length := by omega
      subst this; rw [e1] at ha; cases ha; exact List.Pairwise.nil

/-- `Add` into an empty dictionary does not fail. -/
theorem addH_empty (o : Ref) : ∀ (path : List Bytes) (h : Heap) (d : Addr) (id : Int), h[d]? = some (.dict id []) → ∃ h', addH h d o path = some (none, h') := by
  intro path
  induction path with
  | nil => intro h d id _; exact ⟨h, rfl⟩
  | cons k ks ih =>
    intro h d id ho
    cases ks with
    | nil => simp only [addH, setH, ho]; exact ⟨_, rfl⟩
    | cons k2 ks =>
      rcases addH_step ho o k k2 ks with ⟨_, h1⟩ | ⟨b, h1, _⟩ | ⟨r, h1, _⟩
      · rw [h1]
        have hlt : d < h.length := (List.getElem?_eq_some_iff.1 ho).1
        exact ih _ h.length 0 (by rw [set_get_ne _ (Nat.ne_of_gt hlt)]; exact fresh_get)
      · simp [smGet] at h1
      · simp [smGet] at h1

/-- The failures of `Add`. -/
theorem addH_fails (o : Ref) : ∀ (path : List Bytes) (h : Heap) (d : Addr) (e : AErr) (h' : Heap), h.Tidy → addH h d o path = some (some e, h') →
    e = .invalidDict ∧ h' = h ∧ ∃ p q r, path = p ++ q ∧ q ≠ [] ∧ Leads h d p r ∧ ¬ IsDict h r ∧ r ≠ some nullAddr := by
  intro path
  induction path with
  | nil => intro h d e h' _ he; simp [addH] at he
  | cons k ks ih =>
    intro h d e h' ht he
    cases ks with
    | nil =>
      simp only [addH] at he
      cases hs : setH h d k o <;> rw [hs] at he <;> simp at he
    | cons k2 ks =>
      have hd : ∃ id rs, h[d]? = some (.dict id rs) := by
        rw [addH.eq_def] at he; simp only at he
        split at he
        · exact ⟨_, _, by assumption⟩
        · cases he
      obtain ⟨id, rs, ho⟩ := hd
      have hs := ht _ _ _ ho
      rcases addH_step ho o k k2 ks with ⟨_, h1⟩ | ⟨b, h1, h2, h3⟩ | ⟨r, h1, h2, h3, h4⟩
      · obtain ⟨h2, hh⟩ := addH_empty o (k2 :: ks) _ h.length 0 (fresh_facts ho k ht).2.1
        rw [h1, hh] at he; simp at he
      · rw [h3] at he
        obtain ⟨g1, g2, p, q, r, g3, g4, g5, g6⟩ := ih h b e h' ht he
        refine ⟨g1, g2, k :: p, q, r, by simp [g3], g4, ?_, g6⟩
        cases p with
        | nil => cases g5
        | cons p0 p => exact .step ho ((smGet_mem_iff hs).1 h1) g5
      · rw [h4] at he
        cases he
        exact ⟨rfl, rfl, [k], k2 :: ks, r, rfl, by simp, .last ho ((smGet_mem_iff hs).1 h1), h3, h2⟩

/-- Something on the path that is neither a dictionary nor the shared null makes `Add` fail. -/
theorem addH_stops (o : Ref) {h : Heap} (ht : h.Tidy) (h0 : ¬ DictAt h nullAddr) {d : Addr} {p : List Bytes} {r : Ref} (hl : Leads h d p r) (hd : ¬ IsDict h r) (hn : r ≠ some nullAddr)
    (q : List Bytes) (hq : q ≠ []) : addH h d o (p ++ q) = some (some .invalidDict, h) := by
  induction hl with
  | @last a id kvs k r ho hm =>
    obtain ⟨q0, qs, rfl⟩ : ∃ q0 qs, q = q0 :: qs := by cases q with | nil => exact absurd rfl hq | cons a b => exact ⟨a, b, rfl⟩
    have hg := (smGet_mem_iff (ht _ _ _ ho)).2 hm
    rcases addH_step ho o k q0 qs with ⟨h1, _⟩ | ⟨b, h1, ⟨i, m, h2⟩, _⟩ | ⟨_, _, _, _, h4⟩
    · rw [hg] at h1
      rcases h1 with h1 | h1
      · cases h1
      · exact absurd (Option.some.inj h1) hn
    · rw [hg] at h1; cases h1
      exact absurd ⟨b, i, m, rfl, h2⟩ hd
    · exact h4
  | @step a b id kvs k k2 ks r ho hm hl ih =>
    have hg := (smGet_mem_iff (ht _ _ _ ho)).2 hm
    have hb : DictAt h b := by cases hl with | last h1 _ => exact ⟨_, _, h1⟩ | step h1 _ _ => exact ⟨_, _, h1⟩
    rcases addH_step ho o k k2 (ks ++ q) with ⟨h1, h2⟩ | ⟨b', h1, _, h3⟩ | ⟨r', h1, _, h3, _⟩
    · rw [hg] at h1
      rcases h1 with h1 | h1
      · cases h1
      · -- the shared null is no dictionary; here `b` is one
        cases Option.some.inj (Option.some.inj h1)
        exact absurd hb h0
    · rw [hg] at h1; cases h1
      rw [List.cons_append, List.cons_append, h3]; exact ih hd hn
    · rw [hg] at h1; cases h1
      obtain ⟨i, m, h5⟩ := hb
      exact absurd ⟨b, i, m, rfl, h5⟩ h3

/-- What `Add` changes: one existing dictionary. -/
theorem addH_edits (w : J) (o : Addr) : ∀ (path : List Bytes) (h : Heap) (d : Addr) (v : J) (h' : Heap), path ≠ [] → h.Tidy → v.Seen h d → w.Seen h o →
    (∀ p t, p <+: path → Way h d (p.map .key) t → DictAt h t → ¬ Reach h o t) → addH h d (some o) path = some (none, h') →
    ∃ p k rest t id kvs, path = p ++ k :: rest ∧ Way h d (p.map .key) t ∧ (J.dict id kvs).Seen h t ∧
      (rest = [] ∨ (∀ x, (k, x) ∉ kvs) ∨ Way h t [.key k] nullAddr) ∧ (J.dict id (smAdd kvs k (nest rest w))).Seen h' t ∧
      ∀ y, y < h.length → y ≠ t → h'[y]? = h[y]? := by
  intro path
  induction path with
  | nil => intro _ _ _ _ hn; exact absurd rfl hn
  | cons k ks ih =>
    intro h d v h' _ ht hv hw hsep he
    have hd : ∃ id rs, h[d]? = some (.dict id rs) := by
      cases ks with
      | nil =>
        simp only [addH, setH] at he
        split at he
        · exact ⟨_, _, by assumption⟩
        · simp at he
      | cons k2 ks =>
        rw [addH.eq_def] at he; simp only at he
        split at he
        · exact ⟨_, _, by assumption⟩
        · cases he
    obtain ⟨id, rs, ho⟩ := hd
    have hs := ht _ _ _ ho
    have hod : ¬ Reach h o d := hsep [] d (List.nil_prefix) (.here d) ⟨_, _, ho⟩
    obtain ⟨kvs, rfl, hat⟩ : ∃ kvs, v = .dict id kvs ∧ J.Atf h (fun _ => True) kvs rs := by
      cases v with
      | dict i kvs => simp only [J.Seen, J.At] at hv; obtain ⟨_, rs', e1, e2⟩ := hv; rw [ho] at e1; cases e1; exact ⟨kvs, rfl, e2⟩
      | arr xs => simp only [J.Seen, J.At] at hv; obtain ⟨_, rs', e1, e2⟩ := hv; rw [ho] at e1; cases e1
      | _ => simp only [J.Seen, J.At] at hv; rw [ho] at hv; simp at hv
    have hsx : SMap.Sorted kvs := Atf_sorted hat hs
    have hcyc : ∀ k' c, (k', some c) ∈ rs → ¬ Reach h c d := fun k' c hc =>
      no_cycle hv ho (by simp only [Obj.refs]; exact List.mem_map.2 ⟨_, hc, rfl⟩)
    cases ks with
    | nil =>
      obtain ⟨h2, g1, g2, g3, g4⟩ := setH_seen k hsx hv hw hod
      simp only [addH, g1] at he
      cases he
      exact ⟨[], k, [], d, id, kvs, rfl, .here d, hv, Or.inl rfl, g2, fun y _ hy => g4 y hy⟩
    | cons k2 ks =>
      rcases addH_step ho (some o) k k2 ks with ⟨g1, g2⟩ | ⟨b, g1, g2, g3⟩ | ⟨r, g1, g2, g3, g4⟩
      · -- a new level
        rw [g2] at he
        obtain ⟨el, e1, e2, e3, et⟩ := fresh_facts ho k ht
        have hlt : d < h.length := (List.getElem?_eq_some_iff.1 ho).1
        have keep1 : ∀ (x : J) c, x.Seen h c → ¬ Reach h c d → x.Seen ((h ++ [Obj.dict 0 []]).set d (.dict id (smAdd rs k (some h.length)))) c :=
          fun x c hx hc => Seen_keep hx fun b hb hr => e3 b hb fun e => hc (e ▸ hr)
        have hns : (J.dict 0 []).Seen ((h ++ [Obj.dict 0 []]).set d (.dict id (smAdd rs k (some h.length)))) h.length := by
          simp only [J.Seen, J.At]; exact ⟨trivial, [], e1, rfl⟩
        have nway : ∀ p t, Way ((h ++ [Obj.dict 0 []]).set d (.dict id (smAdd rs k (some h.length)))) h.length p t → p = [] ∧ t = h.length := by
          intro p t hp
          cases hp with
          | here => exact ⟨rfl, rfl⟩
          | key f1 f2 _ => rw [e1] at f1; cases f1; simp at f2
          | elem f1 f2 _ => rw [e1] at f1; cases f1
        have hsep1 : ∀ p t, p <+: (k2 :: ks) → Way ((h ++ [Obj.dict 0 []]).set d (.dict id (smAdd rs k (some h.length)))) h.length (p.map .key) t →
            DictAt ((h ++ [Obj.dict 0 []]).set d (.dict id (smAdd rs k (some h.length)))) t →
            ¬ Reach ((h ++ [Obj.dict 0 []]).set d (.dict id (smAdd rs k (some h.length)))) o t := by
          intro p t _ hp _ hr
          obtain ⟨_, rfl⟩ := nway _ _ hp
          -- what `o` reaches was there before
          have hin : ∀ x y, Reach ((h ++ [Obj.dict 0 []]).set d (.dict id (smAdd rs k (some h.length)))) x y → Reach h o x → x < h.length → y < h.length := by
            intro x y hxy
            induction hxy with
            | refl => exact fun _ h => h
            | @step x b y ob s1 s2 _ ihr =>
              intro hox hx
              have hxd : x ≠ d := fun e => hod (e ▸ hox)
              rw [e3 x hx hxd] at s1
              have hob : Reach h o b := reach_trans hox (.step s1 s2 (.refl b))
              have hbl : b < h.length := ((At_reach _ _ (Seen_reach _ _ hw) b hob)).2
              exact ihr hob hbl
          have hol : o < h.length := (At_reach _ _ (Seen_reach _ _ hw) o (.refl o)).2
          exact absurd (hin o _ hr (.refl o) hol) (Nat.lt_irrefl _)
        obtain ⟨p, k', rest, t, i', kv', f1, f2, f3, _, f5, f6⟩ := ih _ h.length (.dict 0 []) h' (by simp) et hns (keep1 w o hw hod) hsep1 he
        obtain ⟨hp0, rfl⟩ := nway _ _ f2
        have hp0 : p = [] := by simpa using hp0
        subst hp0
        have hnil := Seen_fun _ _ _ f3 hns
        cases hnil
        simp only [List.nil_append, List.cons.injEq] at f1
        obtain ⟨rfl, rfl⟩ := f1
        have hnest : (nest (k2 :: ks) w).Seen h' h.length := by
          have : (J.dict 0 (smAdd [] k2 (nest ks w))) = nest (k2 :: ks) w := rfl
          rw [← this]; exact f5
        have hkeep : ∀ y, y < h.length → y ≠ d → h'[y]? = h[y]? := by
          intro y hy hne
          rw [f6 y (by omega) (by omega), e3 y hy hne]
        have hd' : h'[d]? = some (.dict id (smAdd rs k (some h.length))) := by
          rw [f6 d (by rw [el]; exact Nat.lt_succ_of_lt hlt) (Nat.ne_of_lt hlt)]; exact e2
        refine ⟨[], k, k2 :: ks, d, id, kvs, rfl, .here d, hv, Or.inr ?_, ?_, hkeep⟩
        · rcases g1 with g1 | g1
          · left
            have := Atf_smGet (k := k) kvs rs hat
            intro x hx
            rw [(smGet_mem_iff hsx).2 hx] at this
            obtain ⟨b, hb, _⟩ := this
            rw [g1] at hb; cases hb
          · right; exact .key ho ((smGet_mem_iff hs).1 g1) (.here _)
        · simp only [J.Seen, J.At]
          refine ⟨trivial, _, hd', Atf_smAdd hnest kvs rs hsx hat fun k' x c _ hc hx => ?_⟩
          exact Seen_keep hx fun b hb hr => hkeep b hb fun e => hcyc k' c hc (e ▸ hr)
      · rw [g3] at he
        have hb := Atf_smGet (k := k) kvs rs hat
        cases hx : smGet kvs k with
        | none => rw [hx] at hb; rw [hb] at g1; cases g1
        | some x =>
          rw [hx] at hb
          obtain ⟨b', hb1, hb2⟩ := hb
          rw [g1] at hb1; cases hb1
          have hm := (smGet_mem_iff hs).1 g1
          obtain ⟨p, k', rest, t, i', kv', f1, f2, f3, f4, f5, f6⟩ := ih h b x h' (by simp) ht hb2 hw
            (fun p t hp hwy hdt => hsep (k :: p) t (by obtain ⟨s, hs⟩ := hp; exact ⟨s, by simp [hs]⟩) (.key ho hm hwy) hdt) he
          exact ⟨k :: p, k', rest, t, i', kv', by simp [f1], .key ho hm f2, f3, f4, f5, f6⟩
      · rw [g4] at he; cases he

end Jsonutils
