import Verif.Proofs.GraphTrip

/-! # If fields are declared in the order of their keys, references never come first -/

namespace Jsonutils

/-- Node ids above `lo` and up to `hi`; no reference is to an id that comes later, or above `hi`. -/
def Numbered (lo : Nat) (evs : List NodeEv) (hi : Nat) : Prop :=
  lo ≤ hi ∧ (∀ u, .use u ∈ evs → u ≤ (hi : Int)) ∧ ∀ pre id post, evs = pre ++ .defn id :: post → (lo : Int) < id ∧ id ≤ hi ∧ ∀ u, .use u ∈ pre → u < id

theorem Numbered.nil {lo hi : Nat} (h : lo ≤ hi) : Numbered lo [] hi := ⟨h, by simp, by simp⟩

theorem Numbered.append {a b c : Nat} {xs ys : List NodeEv} (h1 : Numbered a xs b) (h2 : Numbered b ys c) : Numbered a (xs ++ ys) c := by
  obtain ⟨p1, p2, p3⟩ := h1
  obtain ⟨q1, q2, q3⟩ := h2
  refine ⟨Nat.le_trans p1 q1, fun u hu => ?_, fun pre id post he => ?_⟩
  · rcases List.mem_append.1 hu with hu | hu
    · have := p2 u hu; omega
    · exact q2 u hu
  · rcases List.append_eq_append_iff.1 he with ⟨as, e1, e2⟩ | ⟨bs, e1, e2⟩
    · obtain ⟨r1, r2, r3⟩ := q3 as id post e2
      refine ⟨by omega, r2, fun u hu => ?_⟩
      rw [e1] at hu
      rcases List.mem_append.1 hu with hu | hu
      · have := p2 u hu; omega
      · exact r3 u hu
    · cases bs with
      | nil =>
        simp at e1 e2
        obtain ⟨r1, r2, r3⟩ := q3 [] id post (by simpa using e2.symm)
        refine ⟨by omega, r2, fun u hu => ?_⟩
        rw [← e1] at hu
        have := p2 u hu; omega
      | cons x bs =>
        simp only [List.cons_append, List.cons.injEq] at e2
        obtain ⟨rfl, e2⟩ := e2
        obtain ⟨r1, r2, r3⟩ := p3 pre id bs e1
        exact ⟨r1, by omega, r3⟩

theorem numbered_defn {n n' : Nat} {evs : List NodeEv} (h : Numbered (n + 1) evs n') (b : Bool) : Numbered n ((if b then [.defn ((n + 1 : Nat) : Int)] else []) ++ evs) n' := by
  refine Numbered.append (b := n + 1) ?_ h
  cases b with
  | false => exact .nil (by omega)
  | true =>
    refine ⟨by omega, by simp, fun pre id post he => ?_⟩
    cases pre with
    | nil => simp at he; obtain ⟨rfl, _⟩ := he; exact ⟨by omega, by omega, by simp⟩
    | cons x pre => simp at he

theorem Numbered.noForward {lo hi : Nat} {evs : List NodeEv} (h : Numbered lo evs hi) : NoForward evs := by
  intro pre id post he hu
  have := (h.2.2 pre id post he).2.2 id hu
  omega

theorem eventsf_append (xs ys : List (Bytes × J)) : J.eventsf (xs ++ ys) = J.eventsf xs ++ J.eventsf ys := by
  induction xs with
  | nil => rfl
  | cons x xs ih => obtain ⟨k, x⟩ := x; simp [J.eventsf, ih]

theorem noIds_events {j : J} (h : j.nodeIds = [] ∧ j.ptrIds = []) : j.events = [] := by
  cases he : j.events with
  | nil => rfl
  | cons e evs =>
    exfalso
    cases e with
    | defn id =>
      have := (defn_nodeIds id j).1 (by rw [he]; exact List.mem_cons_self ..)
      rw [h.1] at this; cases this
    | use id =>
      have := (use_ptrIds id j).1 (by rw [he]; exact List.mem_cons_self ..)
      rw [h.2] at this; cases this

section
variable {P : UEnv} {h : List GV} {Θ : Nat → Ty} {ord : SMap Bytes → List (Bytes × Bytes)} {oe text : Bool} {pick : List Nat → Nat}

/-- The ids of the trace have been given out. -/
def MSess.Given (s : MSess) : Prop := ∀ e ∈ s.trace, e.id ≤ s.nodeIndex

/-- What is shown of `marshalValue`. -/
structure MarOrder (pick : List Nat → Nat) (s s' : MSess) (o : Option MJ) (g : GV) : Prop where
  given : s'.Given
  mono : s.nodeIndex ≤ s'.nodeIndex
  evs : ∀ m, o = some m → ∀ live, Numbered s.nodeIndex (m.finish live pick).events s'.nodeIndex
  shape : g.DictLike → ∀ m, o = some m → (∃ j, m = .json j ∧ j.events = []) ∨ ∃ kvs, m = .dict [] kvs

/-- For the dereferences. -/
def DerefOrder (h : List GV) (pick : List Nat → Nat) (d : MSess → Option FInfo → Nat → Option (MSess × Option MJ)) : Prop :=
  ∀ s info a s' o, s.Given → optForce info = false → d s info a = some (s', o) → ∀ g, h[a]? = some g → MarOrder pick s s' o g

theorem given_pop {s : MSess} (hs : s.Given) : (⟨s.nodeIndex, tracePop s.trace⟩ : MSess).Given := fun e he => hs e (tracePop_subset _ e he)

theorem ptr_order (hpick : ∀ l, l ≠ [] → pick l ∈ l) {d : MSess → Option FInfo → Nat → Option (MSess × Option MJ)} (hd : DerefOrder h pick d) {a : Nat} {s s' : MSess}
    {info : Option FInfo} {o : Option MJ} (hs : s.Given) (hf : optForce info = false) {g : GV} (ha : h[a]? = some g) (hl : g.DictLike)
    (hr : marshalPtr a s (fun s1 => d s1 info a) = some (s', o)) : MarOrder pick s s' o (.ptr a) := by
  unfold marshalPtr at hr
  cases hfd : traceFind a none s.trace with
  | mk found tr =>
    have hen := traceFind_ents a none s.trace
    rw [hfd] at hr hen
    have hgv : ∀ e ∈ tr, e.id ≤ s.nodeIndex := by
      intro e he
      obtain ⟨x, hx, q1, _⟩ := hen e he
      rw [q1]; exact hs x hx
    cases found with
    | some id =>
      simp only at hr
      cases hr
      refine ⟨hgv, Nat.le_refl _, fun m hm live => ?_, fun hl => (show False from hl).elim⟩
      cases hm
      have := traceFind_is a none s.trace id (by rw [hfd])
      rcases this with h | ⟨e, h1, h2, h3⟩
      · cases h
      · have := hs e h1
        simp only [MJ.finish, J.events]
        refine ⟨Nat.le_refl _, fun u hu => ?_, fun pre id' post he => ?_⟩
        · simp at hu; subst hu; omega
        · cases pre with
          | nil => simp at he
          | cons x pre => simp at he
    | none =>
      simp only at hr
      cases hb : d ⟨s.nodeIndex + 1, tr ++ [⟨s.nodeIndex + 1, a, 1⟩]⟩ info a with
      | none => rw [hb] at hr; cases hr
      | some r =>
        obtain ⟨s2, o2⟩ := r
        rw [hb] at hr
        simp only at hr
        cases hr
        have hs1 : (⟨s.nodeIndex + 1, tr ++ [⟨s.nodeIndex + 1, a, 1⟩]⟩ : MSess).Given := by
          intro e he
          simp only [List.mem_append, List.mem_singleton] at he
          rcases he with he | rfl
          · have := hgv e he; simp only; omega
          · exact Nat.le_refl _
        obtain ⟨h1, h2, h3, h4⟩ := hd _ _ _ _ _ hs1 hf hb g ha
        simp only at h2 h3
        refine ⟨given_pop h1, by simp only; omega, fun m hm live => ?_, fun hl => (show False from hl).elim⟩
        cases o2 with
        | none => cases hm
        | some m2 =>
          cases hm
          have hnum := h3 m2 rfl live
          rcases h4 hl m2 rfl with ⟨j, rfl, hj⟩ | ⟨kvs, rfl⟩
          · simp only [MJ.mark, MJ.finish, hj]
            exact .nil (by omega)
          · simp only [MJ.finish, List.filter_nil, List.isEmpty_nil, if_true, J.events] at hnum
            simp only [MJ.mark, List.nil_append, MJ.finish, J.events]
            have := numbered_defn hnum (live (s.nodeIndex + 1))
            cases hlv : live (s.nodeIndex + 1) with
            | false => simp only [hlv] at this; simpa [hlv] using this
            | true =>
              have hpk := hpick [s.nodeIndex + 1] (by simp)
              rw [List.mem_singleton] at hpk
              simp only [hlv] at this
              simp only [List.filter_cons, hlv, if_true, List.filter_nil, List.isEmpty_cons, Bool.false_eq_true, if_false, hpk]
              rw [if_pos (by omega)]
              simpa using this

theorem names_fst {α β : Type} {fs : List (FInfo × α)} {ds : List (FInfo × β)} (he : fs.map (·.1) = ds.map (·.1)) :
    (fs.filter fun f => !f.1.ignore).map (·.1.name) = (ds.filter fun f => !f.1.ignore).map (·.1.name) := by
  have key : ∀ {γ : Type} (l : List (FInfo × γ)), (l.filter fun f => !f.1.ignore).map (·.1.name) = ((l.map (·.1)).filter fun i => !i.ignore).map (·.name) := by
    intro γ l
    induction l with
    | nil => rfl
    | cons p l ih => simp only [List.filter_cons, List.map_cons]; split <;> simp [ih]
  rw [key, key, he]

section
variable {d : MSess → Option FInfo → Nat → Option (MSess × Option MJ)}

mutual
theorem mar_order (hord : ∀ dep, (ord dep).Perm dep) (hpick : ∀ l, l ≠ [] → pick l ∈ l) (hP : P.RoundTrips text) (hO : P.FieldsInOrder)
    (hd : DerefOrder h pick d) : ∀ (g : GV) (t : Ty) (s s' : MSess) (info : Option FInfo) (o : Option MJ), s.Given → optForce info = false →
      g.HasTy P Θ t → g.Tidy P h oe text t → GV.mar ord oe d g s info = some (s', o) → MarOrder pick s s' o g
  | .leaf l, t, s, s', info, o, hs, hf, ht, hy, hm => by
    simp only [GV.mar] at hm
    cases hm
    rw [GV.HasTy] at ht
    have key : ∀ m : MJ, (l.marshal info oe).map .json = some m → ∃ j, m = .json j ∧ j.events = [] := by
      intro m hm
      cases hj : l.marshal info oe with
      | none => rw [hj] at hm; cases hm
      | some j => rw [hj] at hm; cases hm; exact ⟨j, rfl, noIds_events (leaf_single (simple_noIds ht.1) hj)⟩
    refine ⟨hs, Nat.le_refl _, fun m hm live => ?_, fun _ m hm => Or.inl (key m hm)⟩
    obtain ⟨j, rfl, hj⟩ := key m hm
    simp only [MJ.finish, hj]
    exact .nil (Nat.le_refl _)
  | .seq xs, t, s, s', info, o, hs, hf, ht, hy, hm => by
    rw [GV.HasTy] at ht
    rw [GV.Tidy] at hy
    obtain ⟨e, h1, h2⟩ := ht
    have he : t.elem = e := by rcases h1 with rfl | rfl <;> rfl
    rw [he] at hy
    simp only [GV.mar] at hm
    split at hm
    · cases hm
      exact ⟨hs, Nat.le_refl _, by simp, by simp⟩
    · cases hx : GV.mars ord oe d xs s with
      | none => rw [hx] at hm; cases hm
      | some r =>
        obtain ⟨s1, ys⟩ := r
        rw [hx] at hm
        simp only [forceStr, hf, Bool.false_eq_true, if_false] at hm
        cases hm
        obtain ⟨k1, k2⟩ := mars_order hord hpick hP hO hd xs e s s' ys hs h2 hy hx
        refine ⟨k1, (k2 fun _ => false).1, fun m hm live => ?_, fun hl => (show False from hl).elim⟩
        cases hm
        exact k2 live
  | .map kvs, t, s, s', info, o, hs, hf, ht, hy, hm => by
    rw [GV.HasTy] at ht
    rw [GV.Tidy] at hy
    obtain ⟨hso, e, rfl, h2⟩ := ht
    simp only [GV.mar] at hm
    split at hm
    · cases hm
      exact ⟨hs, Nat.le_refl _, by simp, by simp⟩
    · cases hx : GV.marm ord oe d kvs s with
      | none => rw [hx] at hm; cases hm
      | some r =>
        obtain ⟨s1, ys⟩ := r
        rw [hx] at hm
        simp only [forceStr, hf, Bool.false_eq_true, if_false] at hm
        cases hm
        obtain ⟨k1, k2⟩ := marm_order hord hpick hP hO hd kvs e s s' ys hs h2 hy hx
        have hso' : (kvs.map (·.1)).Pairwise (fun a b => blt a b = true) := List.pairwise_map.2 hso
        have hys : SMap.Sorted ys := List.pairwise_map.1 (hso'.sublist (marm_keys_gv kvs _ _ _ hx))
        refine ⟨k1, (k2 fun _ => false).1, fun m hm live => ?_, fun _ m hm => Or.inr ⟨_, (Option.some.inj hm).symm⟩⟩
        cases hm
        rw [pairsDict_id hys]
        exact k2 live
  | .struct fs, t, s, s', info, o, hs, hf, ht, hy, hm => by
    have hcl := (tidy_clean hP (.struct fs) t ht hy).1
    rw [GV.HasTy] at ht
    rw [GV.Tidy] at hy
    obtain ⟨n, ds, rfl, hn, h2⟩ := ht
    rw [fields_eq hn] at hy
    simp only [GV.mar] at hm
    cases hx : GV.marf ord oe d fs s with
    | none => rw [hx] at hm; cases hm
    | some r =>
      obtain ⟨s1, ps, dep⟩ := r
      rw [hx] at hm
      simp only at hm
      have hdep := marf_dep_gv fs _ _ _ _ hx
      rw [depMap_clean hcl.2] at hdep
      subst hdep
      rw [structDict_clean hord hf] at hm
      simp only at hm
      obtain ⟨k1, k2⟩ := marf_order hord hpick hP hO hd fs ds s s1 ps [] hs (fun k i t hk hi => by obtain ⟨_, q1, q2, _⟩ := (hP.2 n ds hn).2 k i t hk hi; exact ⟨q1, q2⟩) h2 hy hx
      have hps : SMap.Sorted ps := by
        have := hO n ds hn
        rw [← names_fst (hasTyf_fst h2)] at this
        exact List.pairwise_map.1 (this.sublist (marf_keys_gv fs _ _ _ _ hx))
      split at hm
      · cases hm
        exact ⟨k1, (k2 fun _ => false).1, by simp, by simp⟩
      · cases hm
        refine ⟨k1, (k2 fun _ => false).1, fun m hm live => ?_, fun _ m hm => Or.inr ⟨_, (Option.some.inj hm).symm⟩⟩
        cases hm
        rw [pairsDict_id hps]
        exact k2 live
  | .ptr a, t, s, s', info, o, hs, hf, ht, hy, hm => by
    rw [GV.Tidy] at hy
    obtain ⟨g, ha, hT⟩ := hy
    simp only [GV.mar] at hm
    refine ptr_order hpick hd hs hf ha ?_ hm
    cases g <;> first | trivial | exact (show False from hT).elim
  | .jsonPtr _, t, s, s', info, o, hs, hf, ht, hy, hm => by rw [GV.HasTy] at ht; exact ht.elim; all_goals simp
  | .iface _, t, s, s', info, o, hs, hf, ht, hy, hm => by rw [GV.HasTy] at ht; exact ht.elim; all_goals simp
  | .shared _, t, s, s', info, o, hs, hf, ht, hy, hm => by rw [GV.HasTy] at ht; exact ht.elim; all_goals simp
theorem mars_order (hord : ∀ dep, (ord dep).Perm dep) (hpick : ∀ l, l ≠ [] → pick l ∈ l) (hP : P.RoundTrips text) (hO : P.FieldsInOrder)
    (hd : DerefOrder h pick d) : ∀ (xs : List GV) (t : Ty) (s s' : MSess) (ys : List MJ), s.Given →
      GV.HasTys P Θ xs t → GV.Tidys P h oe text xs t → GV.mars ord oe d xs s = some (s', ys) →
      s'.Given ∧ ∀ live, Numbered s.nodeIndex (J.eventss (MJ.finishs live pick ys)) s'.nodeIndex
  | [], t, s, s', ys, hs, ht, hy, hm => by
    simp only [GV.mars] at hm
    cases hm
    exact ⟨hs, fun live => .nil (Nat.le_refl _)⟩
  | x :: xs, t, s, s', ys, hs, ht, hy, hm => by
    rw [GV.HasTys] at ht
    rw [GV.Tidys] at hy
    simp only [GV.mars] at hm
    cases hx : GV.mar ord oe d x s none with
    | none => rw [hx] at hm; cases hm
    | some r =>
      obtain ⟨s1, o⟩ := r
      rw [hx] at hm
      simp only at hm
      cases hxs : GV.mars ord oe d xs s1 with
      | none => rw [hxs] at hm; cases hm
      | some r2 =>
        obtain ⟨s2, zs⟩ := r2
        rw [hxs] at hm
        simp only at hm
        have h1 := mar_order hord hpick hP hO hd x t s s1 none o hs rfl ht.1 hy.2.1 hx
        obtain ⟨k1, k2⟩ := mars_order hord hpick hP hO hd xs t s1 s2 zs h1.given ht.2 hy.2.2 hxs
        cases o with
        | none => cases hm; exact ⟨k1, fun live => Numbered.append (xs := []) (.nil h1.mono) (k2 live)⟩
        | some m =>
          cases hm
          exact ⟨k1, fun live => (h1.evs m rfl live).append (k2 live)⟩
theorem marm_order (hord : ∀ dep, (ord dep).Perm dep) (hpick : ∀ l, l ≠ [] → pick l ∈ l) (hP : P.RoundTrips text) (hO : P.FieldsInOrder)
    (hd : DerefOrder h pick d) : ∀ (xs : List (Bytes × GV)) (t : Ty) (s s' : MSess) (ys : List (Bytes × MJ)), s.Given →
      GV.HasTym P Θ xs t → GV.Tidym P h oe text xs t → GV.marm ord oe d xs s = some (s', ys) →
      s'.Given ∧ ∀ live, Numbered s.nodeIndex (J.eventsf (MJ.finishf live pick ys)) s'.nodeIndex
  | [], t, s, s', ys, hs, ht, hy, hm => by
    simp only [GV.marm] at hm
    cases hm
    exact ⟨hs, fun live => .nil (Nat.le_refl _)⟩
  | (k, x) :: xs, t, s, s', ys, hs, ht, hy, hm => by
    rw [GV.HasTym] at ht
    rw [GV.Tidym] at hy
    simp only [GV.marm] at hm
    cases hx : GV.mar ord oe d x s none with
    | none => rw [hx] at hm; cases hm
    | some r =>
      obtain ⟨s1, o⟩ := r
      rw [hx] at hm
      simp only at hm
      cases hxs : GV.marm ord oe d xs s1 with
      | none => rw [hxs] at hm; cases hm
      | some r2 =>
        obtain ⟨s2, zs⟩ := r2
        rw [hxs] at hm
        simp only at hm
        have h1 := mar_order hord hpick hP hO hd x t s s1 none o hs rfl ht.1 hy.2.1 hx
        obtain ⟨k1, k2⟩ := marm_order hord hpick hP hO hd xs t s1 s2 zs h1.given ht.2 hy.2.2 hxs
        cases o with
        | none => cases hm; exact ⟨k1, fun live => Numbered.append (xs := []) (.nil h1.mono) (k2 live)⟩
        | some m =>
          cases hm
          exact ⟨k1, fun live => (h1.evs m rfl live).append (k2 live)⟩
theorem marf_order (hord : ∀ dep, (ord dep).Perm dep) (hpick : ∀ l, l ≠ [] → pick l ∈ l) (hP : P.RoundTrips text) (hO : P.FieldsInOrder)
    (hd : DerefOrder h pick d) : ∀ (xs : List (FInfo × GV)) (ds : List (FInfo × Ty)) (s s' : MSess) (ys : List (Bytes × MJ)) (dep : SMap Bytes), s.Given →
      (∀ (k : Nat) (i : FInfo) (t : Ty), ds[k]? = some (i, t) → i.ignore = false → i.forceString = false ∧ i.deprecatedBy = none) →
      GV.HasTyf P Θ xs ds → GV.Tidyf P h oe text xs ds → GV.marf ord oe d xs s = some (s', ys, dep) →
      s'.Given ∧ ∀ live, Numbered s.nodeIndex (J.eventsf (MJ.finishf live pick ys)) s'.nodeIndex
  | [], ds, s, s', ys, dep, hs, hds, ht, hy, hm => by
    simp only [GV.marf] at hm
    cases hm
    exact ⟨hs, fun live => .nil (Nat.le_refl _)⟩
  | (i, x) :: xs, ds, s, s', ys, dep, hs, hds, ht, hy, hm => by
    rw [GV.HasTyf] at ht
    obtain ⟨t, r, rfl, t1, t2⟩ := ht
    rw [GV.Tidyf] at hy
    have hds' : ∀ (k : Nat) (i : FInfo) (t : Ty), r[k]? = some (i, t) → i.ignore = false → i.forceString = false ∧ i.deprecatedBy = none :=
      fun k i t hk hi => hds (k + 1) i t (by simpa using hk) hi
    simp only [GV.marf] at hm
    split at hm
    · exact marf_order hord hpick hP hO hd xs r s s' ys dep hs hds' t2 hy.2.2 hm
    · rename_i hi
      simp only [Bool.not_eq_true] at hi
      obtain ⟨d2, d3⟩ := hds 0 i t rfl hi
      rw [d3] at hm
      simp only at hm
      cases hx : GV.mar ord oe d x s (some i) with
      | none => rw [hx] at hm; cases hm
      | some r1 =>
        obtain ⟨s1, o⟩ := r1
        rw [hx] at hm
        simp only at hm
        cases hxs : GV.marf ord oe d xs s1 with
        | none => rw [hxs] at hm; cases hm
        | some r2 =>
          obtain ⟨s2, zs, dep2⟩ := r2
          rw [hxs] at hm
          simp only at hm
          have h1 := mar_order hord hpick hP hO hd x t s s1 (some i) o hs d2 t1 hy.2.1 hx
          obtain ⟨k1, k2⟩ := marf_order hord hpick hP hO hd xs r s1 s2 zs dep2 h1.given hds' t2 hy.2.2 hxs
          cases o with
          | none => cases hm; exact ⟨k1, fun live => Numbered.append (xs := []) (.nil h1.mono) (k2 live)⟩
          | some m =>
            cases hm
            exact ⟨k1, fun live => (h1.evs m rfl live).append (k2 live)⟩
end
end

theorem gd_order (hord : ∀ dep, (ord dep).Perm dep) (hpick : ∀ l, l ≠ [] → pick l ∈ l) (hP : P.RoundTrips text) (hO : P.FieldsInOrder) (hG : GraphTidy P h Θ oe text) :
    ∀ n, DerefOrder h pick (gd ord oe h n) := by
  intro n
  induction n with
  | zero => intro s info a s' o _ _ hr; cases hr
  | succ n ih =>
    intro s info a s' o hs hf hr g hg
    rw [gd_succ hg] at hr
    obtain ⟨q1, q2, q3⟩ := hG a g hg
    exact mar_order hord hpick hP hO ih g (Θ a) s s' info o hs hf q1 q3 hr

theorem marshal_noForward (hord : ∀ dep, (ord dep).Perm dep) (hpick : ∀ l, l ≠ [] → pick l ∈ l) (hP : P.RoundTrips text) (hO : P.FieldsInOrder) (hG : GraphTidy P h Θ oe text)
    {g : GV} {t : Ty} (ht : g.HasTy P Θ t) (hy : g.Tidy P h oe text t) {n : Nat} {j : J} (hm : marshal ord pick oe h n g = some j) : NoForward j.events := by
  unfold marshal at hm
  cases hx : gmar ord oe h n g .init none with
  | none => rw [hx] at hm; cases hm
  | some r =>
    obtain ⟨s, o⟩ := r
    rw [hx] at hm
    rw [gmar_gd] at hx
    have hd := mar_order hord hpick hP hO (gd_order hord hpick hP hO hG n) g t _ _ _ _ (fun e he => by cases he) rfl ht hy hx
    cases o with
    | none => cases hm; intro pre id post he; simp [J.events] at he
    | some m =>
      cases hm
      exact (hd.evs m rfl s.live).noForward

end
end Jsonutils
