import Verif.Proofs.GraphShown

/-! # What `Marshal` makes of a typed pointer graph describes it -/

namespace Jsonutils

section
variable {P : UEnv} {h : List GV} {Θ : Nat → Ty} {ord : SMap Bytes → List (Bytes × Bytes)} {oe text : Bool} {pick : List Nat → Nat}

/-! ### Tidy graphs are clean -/

theorem hasTyf_fst : ∀ {fs : List (FInfo × GV)} {ds : List (FInfo × Ty)}, GV.HasTyf P Θ fs ds → fs.map (·.1) = ds.map (·.1)
  | [], ds, hf => by rw [GV.HasTyf] at hf; rw [hf]; rfl
  | (i, x) :: fs, ds, hf => by
    rw [GV.HasTyf] at hf
    obtain ⟨t, r, rfl, _, h2⟩ := hf
    simp [hasTyf_fst h2]

theorem distinct_fst {α β : Type} : ∀ {fs : List (FInfo × α)} {ds : List (FInfo × β)}, fs.map (·.1) = ds.map (·.1) → DistinctNames ds → DistinctNames fs := by
  intro fs ds he hd
  have key : ∀ {γ : Type} (l : List (FInfo × γ)), (l.filter fun f => !f.1.ignore).map (·.1.name) = ((l.map (·.1)).filter fun i => !i.ignore).map (·.name) := by
    intro γ l
    induction l with
    | nil => rfl
    | cons p l ih => simp only [List.filter_cons, List.map_cons]; split <;> simp [ih]
  unfold DistinctNames at hd ⊢
  rw [key] at hd ⊢
  rwa [he]

theorem fields_eq {n : Nat} {ds : List (FInfo × Ty)} (hn : P.defs[n]? = some ds) : (Ty.struct n).fields P.defs = ds := by
  simp [Ty.fields, List.getD_eq_getElem?_getD, hn]

theorem simple_noIds {l : Leaf} (hl : l.Simple) : l.NoIds := by
  cases l <;> first | trivial | exact (show False from hl).elim

mutual
theorem tidy_clean (hP : P.RoundTrips text) : ∀ (g : GV) (t : Ty), g.HasTy P Θ t → g.Tidy P h oe text t → g.Clean h ∧ g.Finite h ∧ g.DepsOk
  | .leaf l, t, ht, hy => by
    rw [GV.HasTy] at ht
    exact ⟨simple_noIds ht.1, trivial, trivial⟩
  | .seq xs, t, ht, hy => by
    rw [GV.HasTy] at ht
    rw [GV.Tidy] at hy
    obtain ⟨e, h1, h2⟩ := ht
    have : t.elem = e := by rcases h1 with rfl | rfl <;> rfl
    rw [this] at hy
    exact tidy_cleans hP xs e h2 hy
  | .map kvs, t, ht, hy => by
    rw [GV.HasTy] at ht
    rw [GV.Tidy] at hy
    obtain ⟨hs, e, rfl, h2⟩ := ht
    obtain ⟨a, b, c⟩ := tidy_cleanm hP kvs e h2 hy
    exact ⟨⟨sorted_keys_nodupM hs, a⟩, b, c⟩
  | .struct fs, t, ht, hy => by
    rw [GV.HasTy] at ht
    rw [GV.Tidy] at hy
    obtain ⟨n, ds, rfl, hn, h2⟩ := ht
    rw [fields_eq hn] at hy
    obtain ⟨a, b, c⟩ := tidy_cleanf hP fs ds (fun k i t hk hi => by obtain ⟨_, q1, q2, _⟩ := (hP.2 n ds hn).2 k i t hk hi; exact ⟨q1, q2⟩) h2 hy
    refine ⟨⟨distinct_fst (hasTyf_fst h2) (hP.2 n ds hn).1, a⟩, b, ?_, c⟩
    intro k k' hk
    rw [depMap_clean a] at hk
    simp [smGet] at hk
  | .ptr a, t, ht, hy => by
    rw [GV.Tidy] at hy
    obtain ⟨g, h1, h2⟩ := hy
    refine ⟨?_, ?_, trivial⟩
    · intro g' hg'
      rw [h1] at hg'; cases hg'
      cases g <;> first | trivial | exact (show False from h2).elim
    · exact (List.getElem?_eq_some_iff.1 h1).1
  | .jsonPtr _, t, ht, hy => by rw [GV.HasTy] at ht; exact ht.elim; all_goals simp
  | .iface _, t, ht, hy => by rw [GV.HasTy] at ht; exact ht.elim; all_goals simp
  | .shared _, t, ht, hy => by rw [GV.HasTy] at ht; exact ht.elim; all_goals simp
theorem tidy_cleans (hP : P.RoundTrips text) : ∀ (xs : List GV) (t : Ty), GV.HasTys P Θ xs t → GV.Tidys P h oe text xs t → GV.Cleans h xs ∧ GV.Finites h xs ∧ GV.DepsOks xs
  | [], t, _, _ => ⟨trivial, trivial, trivial⟩
  | x :: xs, t, ht, hy => by
    rw [GV.HasTys] at ht
    rw [GV.Tidys] at hy
    obtain ⟨a, b, c⟩ := tidy_clean hP x t ht.1 hy.2.1
    obtain ⟨a', b', c'⟩ := tidy_cleans hP xs t ht.2 hy.2.2
    exact ⟨⟨a, a'⟩, ⟨b, b'⟩, ⟨c, c'⟩⟩
theorem tidy_cleanm (hP : P.RoundTrips text) : ∀ (xs : List (Bytes × GV)) (t : Ty), GV.HasTym P Θ xs t → GV.Tidym P h oe text xs t → GV.Cleanm h xs ∧ GV.Finitem h xs ∧ GV.DepsOkm xs
  | [], t, _, _ => ⟨trivial, trivial, trivial⟩
  | (k, x) :: xs, t, ht, hy => by
    rw [GV.HasTym] at ht
    rw [GV.Tidym] at hy
    obtain ⟨a, b, c⟩ := tidy_clean hP x t ht.1 hy.2.1
    obtain ⟨a', b', c'⟩ := tidy_cleanm hP xs t ht.2 hy.2.2
    exact ⟨⟨a, a'⟩, ⟨b, b'⟩, ⟨c, c'⟩⟩
theorem tidy_cleanf (hP : P.RoundTrips text) : ∀ (xs : List (FInfo × GV)) (ds : List (FInfo × Ty)),
    (∀ (k : Nat) (i : FInfo) (t : Ty), ds[k]? = some (i, t) → i.ignore = false → i.forceString = false ∧ i.deprecatedBy = none) →
    GV.HasTyf P Θ xs ds → GV.Tidyf P h oe text xs ds → GV.Cleanf h xs ∧ GV.Finitef h xs ∧ GV.DepsOkf xs
  | [], ds, _, _, _ => ⟨trivial, trivial, trivial⟩
  | (i, x) :: xs, ds, hd, ht, hy => by
    rw [GV.HasTyf] at ht
    obtain ⟨t, r, rfl, h1, h2⟩ := ht
    rw [GV.Tidyf] at hy
    obtain ⟨a, b, c⟩ := tidy_clean hP x t h1 hy.2.1
    obtain ⟨a', b', c'⟩ := tidy_cleanf hP xs r (fun k i t hk hi => hd (k + 1) i t (by simpa using hk) hi) h2 hy.2.2
    refine ⟨⟨?_, a'⟩, ⟨b, b'⟩, ⟨c, c'⟩⟩
    cases hi : i.ignore with
    | true => exact Or.inl rfl
    | false =>
      obtain ⟨q1, q2⟩ := hd 0 i t rfl hi
      exact Or.inr ⟨q1, q2, a⟩
end

/-! ### Zero values unfold -/

theorem unfs_replicate {x : GV} {t : TV} (hx : Unf h x t) : ∀ n, Unfs h (List.replicate n x) (List.replicate n t)
  | 0 => .nil
  | n + 1 => .cons hx (unfs_replicate hx n)

theorem unff_of {fs : List (FInfo × Ty)} (hf : ∀ (i : FInfo) (t : Ty), (i, t) ∈ fs → ∃ tv, Unf h (P.gzero t) tv) :
    ∃ tfs, Unff h (fs.map fun f => (f.1, P.gzero f.2)) tfs := by
  induction fs with
  | nil => exact ⟨[], .nil⟩
  | cons f fs ih =>
    obtain ⟨i, t⟩ := f
    obtain ⟨tv, h1⟩ := hf i t (List.mem_cons_self ..)
    obtain ⟨tfs, h2⟩ := ih fun i t hm => hf i t (List.mem_cons_of_mem _ hm)
    exact ⟨_, .cons h1 h2⟩

theorem zero_unf_step (hP : P.Ok) (n : Nat) (ih : ∀ m, m < n → ∀ (t : Ty), t.Below m → t.Valid P.defs → ∃ tv, Unf h (P.gzero t) tv) :
    ∀ (t : Ty), t.Below n → t.Valid P.defs → ∃ tv, Unf h (P.gzero t) tv
  | .array k t, hb, hv => by
    obtain ⟨tv, h1⟩ := zero_unf_step hP n ih t hb hv
    rw [gzero_array]
    exact ⟨_, .seq (unfs_replicate h1 k)⟩
  | .struct m, hb, hv => by
    obtain ⟨ds, hd⟩ : ∃ ds, P.defs[m]? = some ds := ⟨_, List.getElem?_eq_getElem hv⟩
    rw [gzero_struct hP.1 hd]
    obtain ⟨tfs, h2⟩ := unff_of (P := P) (h := h) (fs := ds) fun i t hm => ih m hb t (hP.1 m ds hd i t hm) (hP.2.1 m ds hd i t hm)
    exact ⟨_, .struct h2⟩
  | .bool, _, _ => ⟨_, .leaf _⟩
  | .int _, _, _ => ⟨_, .leaf _⟩
  | .uint _, _, _ => ⟨_, .leaf _⟩
  | .float32, _, _ => ⟨_, .leaf _⟩
  | .float64, _, _ => ⟨_, .leaf _⟩
  | .string, _, _ => ⟨_, .leaf _⟩
  | .slice _, _, _ => ⟨_, .leaf _⟩
  | .map _, _, _ => ⟨_, .leaf _⟩
  | .mapOther _, _, _ => ⟨_, .leaf _⟩
  | .ptr _, _, _ => ⟨_, .leaf _⟩
  | .any, _, _ => ⟨_, .leaf _⟩
  | .jobj, _, _ => ⟨_, .leaf _⟩
  | .jptr _, _, _ => ⟨_, .leaf _⟩
  | .jval _, _, _ => ⟨_, .leaf _⟩
  | .other, _, _ => ⟨_, .leaf _⟩

theorem zero_unf (hP : P.Ok) (n : Nat) : ∀ (t : Ty), t.Below n → t.Valid P.defs → ∃ tv, Unf h (P.gzero t) tv := by
  induction n using Nat.strongRecOn with
  | ind n ih => exact zero_unf_step hP n ih

/-! ### The session -/

/-- The entries of the trace stand for the addresses that `Dg` says, and these are structs and maps. -/
def Agree (Θ : Nat → Ty) (Dg : Int → Nat) (s : MSess) : Prop := ∀ e ∈ s.trace, Dg e.id = e.inf ∧ (Θ e.inf).isStructOrMap = true

/-- From session `s` to `s'`, `Q` holds of any table of addresses that agrees with the trace and with certain new entries. -/
def Run (Θ : Nat → Ty) (s s' : MSess) (Q : (Int → Nat) → Prop) : Prop :=
  s.nodeIndex ≤ s'.nodeIndex ∧ ∃ A : Int → Nat, ∀ Dg, Agree Θ Dg s → (∀ id : Int, (s.nodeIndex : Int) < id → id ≤ s'.nodeIndex → Dg id = A id) → Agree Θ Dg s' ∧ Q Dg

theorem Run.imp {s s' : MSess} {Q Q' : (Int → Nat) → Prop} (hr : Run Θ s s' Q) (hq : ∀ Dg, Q Dg → Q' Dg) : Run Θ s s' Q' := by
  obtain ⟨h1, A, h2⟩ := hr
  exact ⟨h1, A, fun Dg a b => ⟨(h2 Dg a b).1, hq Dg (h2 Dg a b).2⟩⟩

theorem Run.const {s : MSess} {Q : (Int → Nat) → Prop} (hq : ∀ Dg, Q Dg) : Run Θ s s Q :=
  ⟨Nat.le_refl _, fun _ => 0, fun Dg a _ => ⟨a, hq Dg⟩⟩

theorem Run.trans {s s1 s2 : MSess} {Q Q' : (Int → Nat) → Prop} (h1 : Run Θ s s1 Q) (h2 : Run Θ s1 s2 Q') : Run Θ s s2 (fun Dg => Q Dg ∧ Q' Dg) := by
  obtain ⟨i1, A1, r1⟩ := h1
  obtain ⟨i2, A2, r2⟩ := h2
  refine ⟨Nat.le_trans i1 i2, fun id => if id ≤ s1.nodeIndex then A1 id else A2 id, fun Dg a b => ?_⟩
  obtain ⟨a1, q1⟩ := r1 Dg a fun id h1 h2 => by rw [b id h1 (by omega)]; exact if_pos h2
  obtain ⟨a2, q2⟩ := r2 Dg a1 fun id h1 h2 => by rw [b id (by omega) h2]; exact if_neg (by omega)
  exact ⟨a2, q1, q2⟩

theorem traceFind_ents (a : Nat) : ∀ (ret : Option Nat) (tr : List TEntry), ∀ e' ∈ (traceFind a ret tr).2, ∃ e ∈ tr, e'.id = e.id ∧ e'.inf = e.inf
  | _, [], e', h => by simp [traceFind] at h
  | ret, e :: tr, e', h => by
    simp only [traceFind, List.mem_cons] at h
    rcases h with h | h
    · refine ⟨e, List.mem_cons_self .., ?_⟩
      subst h
      split <;> split <;> exact ⟨rfl, rfl⟩
    · obtain ⟨x, h1, h2⟩ := traceFind_ents a _ tr e' h
      exact ⟨x, List.mem_cons_of_mem _ h1, h2⟩

theorem traceFind_is (a : Nat) : ∀ (ret : Option Nat) (tr : List TEntry) (id : Nat), (traceFind a ret tr).1 = some id → ret = some id ∨ ∃ e ∈ tr, e.id = id ∧ e.inf = a
  | ret, [], id, h => Or.inl h
  | ret, e :: tr, id, h => by
    simp only [traceFind] at h
    rcases traceFind_is a _ tr id h with h | ⟨x, h1, h2⟩
    · split at h
      · rename_i he
        cases h
        exact Or.inr ⟨e, List.mem_cons_self .., rfl, he⟩
      · exact Or.inl h
    · exact Or.inr ⟨x, List.mem_cons_of_mem _ h1, h2⟩

theorem tracePop_subset (t : List TEntry) : ∀ e ∈ tracePop t, e ∈ t := by
  intro e he
  unfold tracePop at he
  split at he
  · split at he
    · exact List.dropLast_subset _ he
    · exact he
  · exact he

/-! ### Scalars -/

/-- The scalar as a value of its type. -/
theorem leaf_desc (hord : ∀ dep, (ord dep).Perm dep) (hP : P.RoundTrips text) {l : Leaf} {t : Ty} (ht : t.RoundTrips text) (hl : l.Simple) {u : UV} (hu : u.HasTy P.defs t)
    (he : u.toTV P.defs t = .leaf l) (hx : text = true → l.Textual) (hnil : l ≠ .nil) {info : Option FInfo} (hf : optForce info = false) {j : J} (hj : l.marshal info oe = some j) :
    (j.seen text).DocScalar ∧ t.Scalar ∧ (j.seen text).unm P t (P.zero t) = uok u := by
  have hres : u.Restorable oe text := by
    cases u with
    | float x =>
      intro h
      simp only [UV.toTV] at he
      split at he <;> cases he <;> exact hx h
    | seq _ _ => simp [UV.toTV] at he
    | arr _ => simp [UV.toTV] at he
    | map _ => simp [UV.toTV] at he
    | ptr _ => simp [UV.toTV] at he
    | struct _ => simp [UV.toTV] at he
    | json j =>
      simp only [UV.toTV] at he
      split at he <;> cases he <;> exact (show False from hl).elim
    | _ => trivial
  have hst := rt (ord := ord) hord hP.quoted.toD u t hu ht hres (some j) (by rw [he, TV.mar, leaf_info hf hj])
  have hn : u.nullLike = false ∧ u.norm P oe t = u ∧ t.Scalar := by
    cases u with
    | nil => simp only [UV.toTV] at he; cases he; exact absurd rfl hnil
    | bool b => rw [UV.HasTy] at hu; subst hu; exact ⟨rfl, rfl, trivial⟩
    | int n => simp only [UV.HasTy] at hu; refine ⟨rfl, rfl, ?_⟩; cases t <;> first | trivial | exact (show False from hu).elim
    | float x => rw [UV.HasTy] at hu; refine ⟨rfl, rfl, ?_⟩; rcases hu with ⟨rfl, _⟩ | ⟨rfl, _⟩ <;> trivial
    | str s => rw [UV.HasTy] at hu; subst hu; exact ⟨rfl, rfl, trivial⟩
    | seq _ _ => simp [UV.toTV] at he
    | arr _ => simp [UV.toTV] at he
    | map _ => simp [UV.toTV] at he
    | ptr _ => simp [UV.toTV] at he
    | struct _ => simp [UV.toTV] at he
    | any _ => simp [UV.toTV] at he
    | json j =>
      simp only [UV.toTV] at he
      split at he <;> cases he <;> exact (show False from hl).elim
  obtain ⟨j', e1, e2, e3, _⟩ := hst.2 hn.1
  cases e1
  rw [hn.2.1] at e3
  refine ⟨?_, hn.2.2, e3⟩
  refine chain_scalar (t := t) (scalar_chain hn.2.2).1 e2

theorem desc_scalar {Dg : Int → Nat} {j : J} (hj : j.DocScalar) {g : GV} {t : Ty} (hd : DescScalar P h Θ j g t) : j.Desc P h Θ Dg g t := by
  cases j <;> first | exact (show False from hj).elim | exact hd

theorem nil_of_leaf {u : UV} {t : Ty} (hu : u.HasTy P.defs t) (he : u.toTV P.defs t = .leaf .nil) : t.Nilable := by
  cases u with
  | nil => exact hu
  | float x => simp only [UV.toTV] at he; split at he <;> cases he
  | json j => simp only [UV.toTV] at he; split at he <;> cases he
  | _ => simp [UV.toTV] at he

/-- The description of a scalar. -/
theorem leaf_described (hord : ∀ dep, (ord dep).Perm dep) (hP : P.RoundTrips text) {l : Leaf} {t : Ty} (ht : t.RoundTrips text) (hg : (GV.leaf l).HasTy P Θ t)
    (hx : text = true → l.Textual) {info : Option FInfo} (hf : optForce info = false) {j : J} (hj : l.marshal info oe = some j) (Dg : Int → Nat) :
    (j.seen text).Desc P h Θ Dg (.leaf l) t := by
  rw [GV.HasTy] at hg
  obtain ⟨hl, u, hu, he⟩ := hg
  by_cases hnil : l = .nil
  · subst hnil
    simp only [Leaf.marshal] at hj
    split at hj
    · cases hj
    · cases hj
      rw [seen_null]
      exact ⟨rfl, nil_of_leaf hu he⟩
  · obtain ⟨h1, h2, h3⟩ := leaf_desc hord hP ht hl hu he hx hnil hf hj
    exact desc_scalar h1 ⟨l, u, t, Or.inl ⟨rfl, rfl⟩, h2, hu, he, h3⟩

/-- The description of a pointer to a scalar. -/
theorem leaf_described_ptr (hord : ∀ dep, (ord dep).Perm dep) (hP : P.RoundTrips text) {a : Nat} {l : Leaf} (ha : h[a]? = some (.leaf l)) (ht : (Θ a).RoundTrips text) (hg : (GV.leaf l).HasTy P Θ (Θ a))
    (hx : text = true → l.Textual) (hnil : l ≠ .nil) {info : Option FInfo} (hf : optForce info = false) {j : J} (hj : l.marshal info oe = some j) (Dg : Int → Nat) :
    (j.seen text).Desc P h Θ Dg (.ptr a) (.ptr (Θ a)) := by
  rw [GV.HasTy] at hg
  obtain ⟨hl, u, hu, he⟩ := hg
  obtain ⟨h1, h2, h3⟩ := leaf_desc hord hP ht hl hu he hx hnil hf hj
  exact desc_scalar h1 ⟨l, u, Θ a, Or.inr ⟨a, rfl, ha, rfl, rfl⟩, h2, hu, he, h3⟩

/-! ### Documents under construction -/

theorem seen_dict_id (text : Bool) {id : Int} (hid : 0 ≤ id) (kvs : List (Bytes × J)) : (J.dict id kvs).seen text = .dict id (kvs.map fun p => (p.1, p.2.seen text)) := by
  cases text with
  | false => simp [J.seen]
  | true =>
    have : ∀ xs : List (Bytes × J), J.rereadf xs = xs.map fun p => (p.1, p.2.seen true) := by
      intro xs; induction xs with
      | nil => rfl
      | cons x xs ih => obtain ⟨k, x⟩ := x; simp only [J.rereadf, List.map_cons, ih]; rfl
    have he : (if 0 < id then id else 0) = id := by split <;> omega
    simp only [J.seen, if_true, J.reread, this, he]

theorem seen_ptr (text : Bool) (id : Int) : (J.ptr id).seen text = .ptr id := by cases text <;> rfl

/-- The document describes the value, whichever nodes are live at the end. -/
def MDesc (P : UEnv) (h : List GV) (Θ : Nat → Ty) (text : Bool) (pick : List Nat → Nat) (m : MJ) (g : GV) (t : Ty) (Dg : Int → Nat) : Prop :=
  ∀ live, ((m.finish live pick).seen text).Desc P h Θ Dg g t

/-- What is shown of `marshalValue`. -/
structure MarDesc (P : UEnv) (h : List GV) (Θ : Nat → Ty) (oe text : Bool) (pick : List Nat → Nat) (s s' : MSess) (o : Option MJ) (info : Option FInfo) (g : GV) (t : Ty) : Prop where
  run : Run Θ s s' fun Dg => ∀ m, o = some m → MDesc P h Θ text pick m g t Dg
  none : o = none → oe = true ∧ g.IsEmpty h info
  node : g.IsNode → ∀ m, o = some m → ∃ kvs, m = .dict [] kvs

/-- For the dereferences. -/
def DerefDesc (P : UEnv) (h : List GV) (Θ : Nat → Ty) (oe text : Bool) (pick : List Nat → Nat) (d : MSess → Option FInfo → Nat → Option (MSess × Option MJ)) : Prop :=
  ∀ s info a s' o, optForce info = false → d s info a = some (s', o) → ∀ g, h[a]? = some g → MarDesc P h Θ oe text pick s s' o info g (Θ a) ∧
    ∀ l, g = .leaf l → s' = s ∧ o = (l.marshal info oe).map .json

/-- From a struct or map to a pointer to it. -/
theorem desc_ptr {Dg : Int → Nat} {id : Int} {kvs : List (Bytes × J)} {a : Nat} {g : GV} (hn : g.IsNode) (ha : h[a]? = some g) (hd : (J.dict 0 kvs).Desc P h Θ Dg g (Θ a))
    (hid : 0 < id → Dg id = a) : (J.dict id kvs).Desc P h Θ Dg (.ptr a) (.ptr (Θ a)) := by
  rw [J.Desc] at hd ⊢
  obtain ⟨g', e, h1, h2⟩ := hd
  rcases h1 with ⟨rfl, rfl, _⟩ | ⟨a', rfl, _⟩
  · exact ⟨g, Θ a, Or.inr ⟨a, rfl, rfl, rfl, ha, hid⟩, h2⟩
  · exact (show False from hn).elim

theorem node_type {g : GV} {t : Ty} (hn : g.IsNode) (ht : g.HasTy P Θ t) : t.isStructOrMap = true := by
  cases g with
  | map _ => rw [GV.HasTy] at ht; obtain ⟨_, e, rfl, _⟩ := ht; rfl
  | struct _ => rw [GV.HasTy] at ht; obtain ⟨n, ds, rfl, _⟩ := ht; rfl
  | _ => exact (show False from hn).elim

theorem ptr_desc (hord : ∀ dep, (ord dep).Perm dep) (hpick : ∀ l, l ≠ [] → pick l ∈ l) (hP : P.RoundTrips text) (hG : GraphTidy P h Θ oe text)
    {d : MSess → Option FInfo → Nat → Option (MSess × Option MJ)} (hd : DerefDesc P h Θ oe text pick d) {a : Nat} {s s' : MSess} {info : Option FInfo} {o : Option MJ}
    (hf : optForce info = false) {g : GV} (ha : h[a]? = some g) (hT : g.Target) (hr : marshalPtr a s (fun s1 => d s1 info a) = some (s', o)) :
    (o = none → oe = true ∧ (GV.ptr a).IsEmpty h info) ∧ (Run Θ s s' fun Dg => ∀ m, o = some m → MDesc P h Θ text pick m (.ptr a) (.ptr (Θ a)) Dg) := by
  unfold marshalPtr at hr
  cases hfd : traceFind a none s.trace with
  | mk found tr =>
    have hen := traceFind_ents a none s.trace
    rw [hfd] at hr hen
    cases found with
    | some id =>
      simp only at hr
      cases hr
      have := traceFind_is a none s.trace id (by rw [hfd])
      rcases this with h | ⟨e, h1, h2, h3⟩
      · cases h
      · refine ⟨by simp, Nat.le_refl _, fun _ => 0, fun Dg hag _ => ⟨?_, ?_⟩⟩
        · intro e' he'
          obtain ⟨x, hx, q1, q2⟩ := hen e' he'
          rw [q1, q2]; exact hag x hx
        · intro m hm live
          cases hm
          rw [MJ.finish, seen_ptr]
          obtain ⟨q1, q2⟩ := hag e h1
          rw [h2, h3] at q1
          rw [h3] at q2
          exact ⟨by rw [q1], by rw [q1], by rw [q1]; exact q2⟩
    | none =>
      have htt : tr = s.trace := by
        have := traceFind_miss (a := a) s.trace (fun e he hea => traceFind_none a s.trace (by rw [hfd]) (List.mem_map.2 ⟨e, he, hea⟩))
        rw [hfd] at this; cases this; rfl
      subst htt
      simp only at hr
      cases hb2 : d ⟨s.nodeIndex + 1, s.trace ++ [⟨s.nodeIndex + 1, a, 1⟩]⟩ info a with
      | none => rw [hb2] at hr; cases hr
      | some r =>
        obtain ⟨s2, o2⟩ := r
        rw [hb2] at hr
        simp only at hr
        cases hr
        obtain ⟨⟨hrun, hnone, hnode⟩, hleaf⟩ := hd _ _ _ _ _ hf hb2 g ha
        obtain ⟨hg1, hg2, hg3⟩ := hG a g ha
        refine ⟨?_, ?_⟩
        · intro hn
          have : o2 = none := by cases o2 <;> simp at hn; rfl
          obtain ⟨q1, tv, q2, q3⟩ := hnone this
          exact ⟨q1, .ptr tv, .ptr ha q2, q3⟩
        · by_cases hl : ∃ l, g = .leaf l
          · obtain ⟨l, rfl⟩ := hl
            obtain ⟨rfl, rfl⟩ := hleaf l rfl
            refine ⟨by simp, fun _ => 0, fun Dg hag _ => ⟨?_, ?_⟩⟩
            · simp only [tracePop_push]; exact hag
            · intro m hm live
              cases hj : l.marshal info oe with
              | none => rw [hj] at hm; cases hm
              | some j =>
                rw [hj] at hm; cases hm
                exact leaf_described_ptr hord hP ha hg2 hg1 hg3 hT hf hj Dg
          · have hn : g.IsNode := by
              cases g with
              | leaf l => exact absurd ⟨l, rfl⟩ hl
              | map _ => trivial
              | struct _ => trivial
              | _ => exact (show False from hT).elim
            obtain ⟨i1, A, hA⟩ := hrun
            simp only at i1 hA
            refine ⟨by simp only; omega, fun id => if id = s.nodeIndex + 1 then a else A id, fun Dg hag hDg => ?_⟩
            simp only at hDg
            have hid : Dg ((s.nodeIndex : Int) + 1) = a := by rw [hDg _ (by omega) (by omega)]; simp
            have hag' : Agree Θ Dg ⟨s.nodeIndex + 1, s.trace ++ [⟨s.nodeIndex + 1, a, 1⟩]⟩ := by
              intro e he
              simp only [List.mem_append, List.mem_singleton] at he
              rcases he with he | rfl
              · exact hag e he
              · exact ⟨by simpa using hid, node_type hn hg1⟩
            obtain ⟨r1, r2⟩ := hA Dg hag' fun id q1 q2 => by
              rw [hDg id (by omega) q2]; exact if_neg (by omega)
            refine ⟨fun e he => r1 e (tracePop_subset _ e he), ?_⟩
            intro m hm live
            cases o2 with
            | none => cases hm
            | some m2 =>
              obtain ⟨kvs, rfl⟩ := hnode hn m2 rfl
              cases hm
              have := r2 _ rfl live
              simp only [MJ.finish, List.filter_nil, List.isEmpty_nil, if_true] at this
              rw [seen_dict] at this
              simp only [MJ.mark, List.nil_append, MJ.finish]
              rw [seen_dict_id _ (by split <;> omega)]
              refine desc_ptr hn ha this ?_
              intro hpos
              split at hpos
              · simp at hpos
              · rename_i hne
                rw [if_neg hne]
                have hm := hpick (List.filter live [s.nodeIndex + 1]) (by intro he; rw [he] at hne; simp at hne)
                rw [List.mem_filter, List.mem_singleton] at hm
                rw [hm.1]
                simpa using hid

/-! ### Containers -/

/-- The pairs of the fields. -/
def FieldsDesc (P : UEnv) (h : List GV) (Θ : Nat → Ty) (text : Bool) (pick : List Nat → Nat) (ps : List (Bytes × MJ)) (fs : List (FInfo × GV)) (ds : List (FInfo × Ty)) (Dg : Int → Nat) : Prop :=
  ∀ k m, (k, m) ∈ ps → ∃ (q : Nat) (i : FInfo) (x : GV) (t : Ty), fs[q]? = some (i, x) ∧ ds[q]? = some (i, t) ∧ i.ignore = false ∧ i.name = k ∧ MDesc P h Θ text pick m x t Dg

/-- Fields without a pair are ignored or empty. -/
def FieldsMiss (h : List GV) (oe : Bool) (ps : List (Bytes × MJ)) (fs : List (FInfo × GV)) : Prop :=
  ∀ (q : Nat) (i : FInfo) (x : GV), fs[q]? = some (i, x) → i.ignore = true ∨ (∃ m, (i.name, m) ∈ ps) ∨ (oe = true ∧ x.IsEmpty h (some i))

/-- The elements. -/
inductive SeqDesc (P : UEnv) (h : List GV) (Θ : Nat → Ty) (text : Bool) (pick : List Nat → Nat) (t : Ty) (Dg : Int → Nat) : List MJ → List GV → Prop
  | nil : SeqDesc P h Θ text pick t Dg [] []
  | cons {m ms x xs} : MDesc P h Θ text pick m x t Dg → SeqDesc P h Θ text pick t Dg ms xs → SeqDesc P h Θ text pick t Dg (m :: ms) (x :: xs)

/-- The entries. -/
inductive MapDesc (P : UEnv) (h : List GV) (Θ : Nat → Ty) (text : Bool) (pick : List Nat → Nat) (t : Ty) (Dg : Int → Nat) : List (Bytes × MJ) → List (Bytes × GV) → Prop
  | nil : MapDesc P h Θ text pick t Dg [] []
  | cons {k m ms x xs} : MDesc P h Θ text pick m x t Dg → MapDesc P h Θ text pick t Dg ms xs → MapDesc P h Θ text pick t Dg ((k, m) :: ms) ((k, x) :: xs)

theorem seqDesc_descs {t : Ty} {Dg : Int → Nat} {ms : List MJ} {xs : List GV} (hs : SeqDesc P h Θ text pick t Dg ms xs) (live : Nat → Bool) :
    J.Descs P h Θ Dg ((MJ.finishs live pick ms).map (J.seen text)) xs t := by
  induction hs with
  | nil => rfl
  | cons h1 _ ih => exact ⟨_, _, rfl, h1 live, ih⟩

theorem mapDesc_descm {t : Ty} {Dg : Int → Nat} {ms : List (Bytes × MJ)} {xs : List (Bytes × GV)} (hs : MapDesc P h Θ text pick t Dg ms xs) (live : Nat → Bool) :
    J.Descm P h Θ Dg ((MJ.finishf live pick ms).map fun p => (p.1, p.2.seen text)) xs t := by
  induction hs with
  | nil => rfl
  | cons h1 _ ih => exact ⟨_, _, rfl, h1 live, ih⟩

theorem mapDesc_keys {t : Ty} {Dg : Int → Nat} {ms : List (Bytes × MJ)} {xs : List (Bytes × GV)} (hs : MapDesc P h Θ text pick t Dg ms xs) : ms.map (·.1) = xs.map (·.1) := by
  induction hs with
  | nil => rfl
  | cons h1 _ ih => simp [ih]

theorem sorted_by_keys {α β : Type} {a : List (Bytes × α)} {b : List (Bytes × β)} (he : a.map (·.1) = b.map (·.1)) (hs : SMap.Sorted b) : SMap.Sorted a := by
  have : (b.map (·.1)).Pairwise (fun a b => blt a b = true) := List.pairwise_map.2 hs
  rw [← he] at this
  exact List.pairwise_map.1 this

theorem pairsDict_id {α : Type} {l : SMap α} (hl : SMap.Sorted l) : pairsDict l = l := by
  have := foldl_smAdd_sorted l [] (by simpa using hl)
  simpa [pairsDict] using this

theorem descf_of_mem {Dg : Int → Nat} {n : Nat} {fs : List (FInfo × GV)} {ds : List (FInfo × Ty)} : ∀ {kvs : List (Bytes × J)},
    (∀ k x, (k, x) ∈ kvs → ∃ (q : Nat) (i : FInfo) (y : GV) (t : Ty), P.idx n k = [q] ∧ fs[q]? = some (i, y) ∧ ds[q]? = some (i, t) ∧ i.deprecatedBy = none ∧ x.Desc P h Θ Dg y t) →
    J.Descf P h Θ Dg kvs n fs ds
  | [], _ => trivial
  | (k, x) :: r, ha => ⟨ha k x (List.mem_cons_self ..), descf_of_mem fun k x hm => ha k x (List.mem_cons_of_mem _ hm)⟩

theorem tidyf_get : ∀ {fs : List (FInfo × GV)} {ds : List (FInfo × Ty)}, GV.Tidyf P h oe text fs ds → ∀ (q : Nat) (i : FInfo) (x : GV) (t : Ty), fs[q]? = some (i, x) → ds[q]? = some (i, t) →
    (i.ignore = true ∨ (oe = true ∧ x.IsEmpty h (some i)) → x = P.gzero t)
  | [], ds, _, q, i, x, t, h1, _ => by simp at h1
  | f :: fs, [], _, q, i, x, t, _, h2 => by simp at h2
  | (i', x') :: fs, (i'', t') :: ds, hy, q, i, x, t, h1, h2 => by
    rw [GV.Tidyf] at hy
    cases q with
    | zero => simp at h1 h2; obtain ⟨rfl, rfl⟩ := h1; obtain ⟨_, rfl⟩ := h2; exact hy.1
    | succ q => exact tidyf_get hy.2.2 q i x t (by simpa using h1) (by simpa using h2)

theorem fields_dict (hP : P.RoundTrips text) {n : Nat} {ds : List (FInfo × Ty)} (hn : P.defs[n]? = some ds) {fs : List (FInfo × GV)} (hfst : fs.map (·.1) = ds.map (·.1))
    (hty : GV.Tidyf P h oe text fs ds) {ps : List (Bytes × MJ)} (hk : (ps.map (·.1)).Nodup) {Dg : Int → Nat} (hd : FieldsDesc P h Θ text pick ps fs ds Dg) (hm : FieldsMiss h oe ps fs) :
    MDesc P h Θ text pick (.dict [] (pairsDict ps)) (.struct fs) (.struct n) Dg := by
  intro live
  simp only [MJ.finish, List.filter_nil, List.isEmpty_nil, if_true]
  rw [seen_dict, finishf_map]
  have hperm := pairsDict_perm ps hk
  have hmem : ∀ k x, (k, x) ∈ ((pairsDict ps).map fun p => (p.1, p.2.finish live pick)).map (fun p => (p.1, p.2.seen text)) →
      ∃ (q : Nat) (i : FInfo) (y : GV) (t : Ty), P.idx n k = [q] ∧ fs[q]? = some (i, y) ∧ ds[q]? = some (i, t) ∧ i.deprecatedBy = none ∧ i.name = k ∧ x.Desc P h Θ Dg y t := by
    intro k x hx
    simp only [List.map_map, List.mem_map, Function.comp, Prod.mk.injEq] at hx
    obtain ⟨⟨k', m⟩, h1, rfl, rfl⟩ := hx
    obtain ⟨q, i, y, t, e1, e2, e3, e4, e5⟩ := hd k' m (hperm.subset h1)
    obtain ⟨_, _, f3, f4⟩ := (hP.2 n ds hn).2 q i t e2 e3
    rw [e4] at f4
    exact ⟨q, i, y, t, f4, e1, e2, f3, e4, e5 live⟩
  refine ⟨.struct fs, .struct n, Or.inl ⟨rfl, rfl, Int.le_refl _⟩, Or.inl ⟨n, ds, fs, rfl, hn, rfl, hfst, ?_, ?_, ?_⟩⟩
  · refine descf_of_mem fun k x hx => ?_
    obtain ⟨q, i, y, t, e1, e2, e3, e4, _, e6⟩ := hmem k x hx
    exact ⟨q, i, y, t, e1, e2, e3, e4, e6⟩
  · have hkeys : ((((pairsDict ps).map fun p => (p.1, p.2.finish live pick)).map (fun p => (p.1, p.2.seen text))).map (·.1)).Nodup := by
      simp only [List.map_map]
      have : (((fun x : Bytes × J => x.1) ∘ (fun p : Bytes × J => (p.1, J.seen text p.2)) ∘ fun p : Bytes × MJ => (p.1, MJ.finish live pick p.2))) = fun p => p.1 := rfl
      rw [this]
      exact ((hperm.map _).nodup_iff).2 hk
    have hpw := List.pairwise_map.1 (List.nodup_iff_pairwise_ne.1 hkeys)
    refine List.Pairwise.imp_of_mem (fun {p r} hp hr hne he => hne ?_) hpw
    obtain ⟨q, i, y, t, e1, e2, _, _, e5, _⟩ := hmem p.1 p.2 hp
    obtain ⟨q', i', y', t', f1, f2, _, _, f5, _⟩ := hmem r.1 r.2 hr
    rw [e1, f1] at he
    cases he
    rw [e2] at f2
    cases f2
    rw [← e5, ← f5]
  · intro q i x t h1 h2 hno
    refine tidyf_get hty q i x t h1 h2 ?_
    rcases hm q i x h1 with h | ⟨m, hmm⟩ | h
    · exact Or.inl h
    · cases hi : i.ignore with
      | true => exact Or.inl rfl
      | false =>
        obtain ⟨_, _, _, f4⟩ := (hP.2 n ds hn).2 q i t h2 hi
        refine absurd f4 (hno (i.name, (m.finish live pick).seen text) ?_)
        simp only [List.map_map, List.mem_map]
        exact ⟨(i.name, m), hperm.symm.subset hmm, rfl⟩
    · exact Or.inr h

/-- All fields missing: the struct is empty. -/
theorem fields_empty (hP : P.Ok) {fs : List (FInfo × GV)} {ds : List (FInfo × Ty)} (hty : GV.Tidyf P h oe text fs ds) (hfst : fs.map (·.1) = ds.map (·.1))
    (hds : ∀ (i : FInfo) (t : Ty), (i, t) ∈ ds → ∃ tv, Unf h (P.gzero t) tv) (hm : FieldsMiss h oe [] fs) : ∃ tfs, Unff h fs tfs ∧ TV.Emptyf tfs := by
  induction fs generalizing ds with
  | nil => exact ⟨[], .nil, trivial⟩
  | cons f fs ih =>
    obtain ⟨i, x⟩ := f
    cases ds with
    | nil => simp at hfst
    | cons dd ds =>
      obtain ⟨i', t⟩ := dd
      simp only [List.map_cons, List.cons.injEq] at hfst
      obtain ⟨rfl, hfst⟩ := hfst
      rw [GV.Tidyf] at hty
      obtain ⟨tfs, u1, u2⟩ := ih hty.2.2 hfst (fun i t hm => hds i t (List.mem_cons_of_mem _ hm)) fun q i x hq => hm (q + 1) i x (by simpa using hq)
      have hx : ∃ tv, Unf h x tv ∧ (i.ignore = true ∨ i.deprecatedBy ≠ none ∨ tv.Empty (some i)) := by
        rcases hm 0 i x rfl with hi | ⟨m, hmm⟩ | ⟨_, tv, v1, v2⟩
        · obtain ⟨tv, v⟩ := hds i t (List.mem_cons_self ..)
          rw [← hty.1 (Or.inl hi)] at v
          exact ⟨tv, v, Or.inl hi⟩
        · cases hmm
        · exact ⟨tv, v1, Or.inr (Or.inr v2)⟩
      obtain ⟨tv, v1, v2⟩ := hx
      exact ⟨(i, tv) :: tfs, .cons v1 u1, v2, u2⟩

/-! ### The induction -/

section
variable {d : MSess → Option FInfo → Nat → Option (MSess × Option MJ)}

mutual
theorem mar_desc (hord : ∀ dep, (ord dep).Perm dep) (hpick : ∀ l, l ≠ [] → pick l ∈ l) (hOk : P.Ok) (hP : P.RoundTrips text) (hG : GraphTidy P h Θ oe text)
    (hd : DerefDesc P h Θ oe text pick d) : ∀ (g : GV) (t : Ty) (s s' : MSess) (info : Option FInfo) (o : Option MJ), optForce info = false → t.RoundTrips text →
      g.HasTy P Θ t → g.Tidy P h oe text t → GV.mar ord oe d g s info = some (s', o) → MarDesc P h Θ oe text pick s s' o info g t
  | .leaf l, t, s, s', info, o, hf, hr, ht, hy, hm => by
    simp only [GV.mar] at hm
    cases hm
    rw [GV.Tidy] at hy
    refine ⟨Run.const fun Dg m hm live => ?_, fun hn => ?_, fun hn => (show False from hn).elim⟩
    · cases hj : l.marshal info oe with
      | none => rw [hj] at hm; cases hm
      | some j =>
        rw [hj] at hm; cases hm
        exact leaf_described hord hP hr ht hy hf hj Dg
    · have : l.marshal info oe = none := by cases hj : l.marshal info oe <;> simp [hj] at hn; rfl
      obtain ⟨h1, h2⟩ := (leaf_none_iff l info).1 this
      exact ⟨h1, .leaf l, .leaf l, h2⟩
  | .seq xs, t, s, s', info, o, hf, hr, ht, hy, hm => by
    rw [GV.HasTy] at ht
    rw [GV.Tidy] at hy
    obtain ⟨e, h1, h2⟩ := ht
    have he : t.elem = e ∧ e.RoundTrips text := by rcases h1 with rfl | rfl <;> exact ⟨rfl, hr⟩
    rw [he.1] at hy
    simp only [GV.mar] at hm
    split at hm
    · rename_i hc
      cases hm
      refine ⟨Run.const (by simp), fun _ => ⟨hc.2.2, .seq [], ?_, rfl, hc.2.1⟩, fun hn => (show False from hn).elim⟩
      rw [List.isEmpty_iff.1 hc.1]; exact .seq .nil
    · cases hx : GV.mars ord oe d xs s with
      | none => rw [hx] at hm; cases hm
      | some r =>
        obtain ⟨s1, ys⟩ := r
        rw [hx] at hm
        simp only [forceStr, hf, Bool.false_eq_true, if_false] at hm
        cases hm
        have := mars_desc hord hpick hOk hP hG hd xs e s s' ys he.2 h2 hy hx
        refine ⟨this.imp fun Dg hs m hm live => ?_, by simp, fun hn => (show False from hn).elim⟩
        cases hm
        simp only [MJ.finish]
        rw [seen_arr]
        exact ⟨xs, e, rfl, h1, seqDesc_descs hs live⟩
  | .map kvs, t, s, s', info, o, hf, hr, ht, hy, hm => by
    rw [GV.HasTy] at ht
    rw [GV.Tidy] at hy
    obtain ⟨hso, e, rfl, h2⟩ := ht
    simp only [GV.mar] at hm
    split at hm
    · rename_i hc
      cases hm
      refine ⟨Run.const (by simp), fun _ => ⟨hc.2.2, .map [], ?_, rfl, hc.2.1⟩, fun _ => by simp⟩
      rw [List.isEmpty_iff.1 hc.1]; exact .map .nil
    · cases hx : GV.marm ord oe d kvs s with
      | none => rw [hx] at hm; cases hm
      | some r =>
        obtain ⟨s1, ys⟩ := r
        rw [hx] at hm
        simp only [forceStr, hf, Bool.false_eq_true, if_false] at hm
        cases hm
        have := marm_desc hord hpick hOk hP hG hd kvs e s s' ys hr h2 hy hx
        refine ⟨this.imp fun Dg hs m hm live => ?_, by simp, fun _ m hm => ⟨_, (Option.some.inj hm).symm⟩⟩
        cases hm
        have hys := sorted_by_keys (mapDesc_keys hs) hso
        rw [pairsDict_id hys]
        simp only [MJ.finish, List.filter_nil, List.isEmpty_nil, if_true]
        rw [seen_dict]
        refine ⟨.map kvs, .map e, Or.inl ⟨rfl, rfl, Int.le_refl _⟩, Or.inr ⟨e, kvs, rfl, rfl, ?_, mapDesc_descm hs live⟩⟩
        refine sorted_by_keys (b := ys) ?_ hys
        rw [finishf_map]
        simp only [List.map_map]; rfl
  | .struct fs, t, s, s', info, o, hf, hr, ht, hy, hm => by
    have hcl := (tidy_clean hP (.struct fs) t ht hy).1
    rw [GV.HasTy] at ht
    rw [GV.Tidy] at hy
    obtain ⟨n, ds, rfl, hn, h2⟩ := ht
    rw [fields_eq hn] at hy
    simp only [GV.mar] at hm
    cases hx : GV.marf ord oe d fs s with
    | none => rw [hx] at hm; cases hm
    | some r =>
      obtain ⟨s1, ps, dep⟩ := r
      rw [hx] at hm
      simp only at hm
      have hdep := marf_dep_gv fs _ _ _ _ hx
      rw [depMap_clean hcl.2] at hdep
      subst hdep
      rw [structDict_clean hord hf] at hm
      simp only at hm
      have hkeys : (ps.map (·.1)).Nodup := (marf_keys_gv fs _ _ _ _ hx).nodup hcl.1
      obtain ⟨k1, k2⟩ := marf_desc hord hpick hOk hP hG hd fs ds s s1 ps [] (fun k i t hk hi => by obtain ⟨q0, q1, q2, _⟩ := (hP.2 n ds hn).2 k i t hk hi; exact ⟨q0, q1, q2⟩) h2 hy hx
      have hfst := hasTyf_fst h2
      split at hm
      · rename_i hc
        cases hm
        have hps : ps = [] := List.isEmpty_iff.1 hc.1
        subst hps
        refine ⟨k1.imp (by simp), fun _ => ⟨hc.2.2, ?_⟩, fun _ => by simp⟩
        obtain ⟨tfs, u1, u2⟩ := fields_empty hOk hy hfst (fun i t hm => zero_unf hOk n t (hOk.1 n ds hn i t hm) (hOk.2.1 n ds hn i t hm)) k2
        exact ⟨.struct tfs, .struct u1, u2, hc.2.1⟩
      · cases hm
        refine ⟨k1.imp fun Dg hs m hm => ?_, by simp, fun _ m hm => ⟨_, (Option.some.inj hm).symm⟩⟩
        cases hm
        exact fields_dict hP hn hfst hy hkeys hs k2
  | .ptr a, t, s, s', info, o, hf, hr, ht, hy, hm => by
    rw [GV.HasTy] at ht
    rw [GV.Tidy] at hy
    subst ht
    obtain ⟨g, ha, hT⟩ := hy
    simp only [GV.mar] at hm
    obtain ⟨k1, k2⟩ := ptr_desc hord hpick hP hG hd hf ha hT hm
    exact ⟨k2, k1, fun hn => (show False from hn).elim⟩
  | .jsonPtr _, t, s, s', info, o, hf, hr, ht, hy, hm => by rw [GV.HasTy] at ht; exact ht.elim; all_goals simp
  | .iface _, t, s, s', info, o, hf, hr, ht, hy, hm => by rw [GV.HasTy] at ht; exact ht.elim; all_goals simp
  | .shared _, t, s, s', info, o, hf, hr, ht, hy, hm => by rw [GV.HasTy] at ht; exact ht.elim; all_goals simp
theorem mars_desc (hord : ∀ dep, (ord dep).Perm dep) (hpick : ∀ l, l ≠ [] → pick l ∈ l) (hOk : P.Ok) (hP : P.RoundTrips text) (hG : GraphTidy P h Θ oe text)
    (hd : DerefDesc P h Θ oe text pick d) : ∀ (xs : List GV) (t : Ty) (s s' : MSess) (ys : List MJ), t.RoundTrips text →
      GV.HasTys P Θ xs t → GV.Tidys P h oe text xs t → GV.mars ord oe d xs s = some (s', ys) → Run Θ s s' fun Dg => SeqDesc P h Θ text pick t Dg ys xs
  | [], t, s, s', ys, hr, ht, hy, hm => by
    simp only [GV.mars] at hm
    cases hm
    exact Run.const fun _ => .nil
  | x :: xs, t, s, s', ys, hr, ht, hy, hm => by
    rw [GV.HasTys] at ht
    rw [GV.Tidys] at hy
    simp only [GV.mars] at hm
    cases hx : GV.mar ord oe d x s none with
    | none => rw [hx] at hm; cases hm
    | some r =>
      obtain ⟨s1, o⟩ := r
      rw [hx] at hm
      simp only at hm
      cases hxs : GV.mars ord oe d xs s1 with
      | none => rw [hxs] at hm; cases hm
      | some r2 =>
        obtain ⟨s2, zs⟩ := r2
        rw [hxs] at hm
        simp only at hm
        have h1 := mar_desc hord hpick hOk hP hG hd x t s s1 none o rfl hr ht.1 hy.2.1 hx
        have h2 := mars_desc hord hpick hOk hP hG hd xs t s1 s2 zs hr ht.2 hy.2.2 hxs
        cases o with
        | none => obtain ⟨q1, q2⟩ := h1.none rfl; exact absurd q2 (hy.1 q1)
        | some m =>
          cases hm
          exact (h1.run.trans h2).imp fun Dg hq => .cons (hq.1 m rfl) hq.2
theorem marm_desc (hord : ∀ dep, (ord dep).Perm dep) (hpick : ∀ l, l ≠ [] → pick l ∈ l) (hOk : P.Ok) (hP : P.RoundTrips text) (hG : GraphTidy P h Θ oe text)
    (hd : DerefDesc P h Θ oe text pick d) : ∀ (xs : List (Bytes × GV)) (t : Ty) (s s' : MSess) (ys : List (Bytes × MJ)), t.RoundTrips text →
      GV.HasTym P Θ xs t → GV.Tidym P h oe text xs t → GV.marm ord oe d xs s = some (s', ys) → Run Θ s s' fun Dg => MapDesc P h Θ text pick t Dg ys xs
  | [], t, s, s', ys, hr, ht, hy, hm => by
    simp only [GV.marm] at hm
    cases hm
    exact Run.const fun _ => .nil
  | (k, x) :: xs, t, s, s', ys, hr, ht, hy, hm => by
    rw [GV.HasTym] at ht
    rw [GV.Tidym] at hy
    simp only [GV.marm] at hm
    cases hx : GV.mar ord oe d x s none with
    | none => rw [hx] at hm; cases hm
    | some r =>
      obtain ⟨s1, o⟩ := r
      rw [hx] at hm
      simp only at hm
      cases hxs : GV.marm ord oe d xs s1 with
      | none => rw [hxs] at hm; cases hm
      | some r2 =>
        obtain ⟨s2, zs⟩ := r2
        rw [hxs] at hm
        simp only at hm
        have h1 := mar_desc hord hpick hOk hP hG hd x t s s1 none o rfl hr ht.1 hy.2.1 hx
        have h2 := marm_desc hord hpick hOk hP hG hd xs t s1 s2 zs hr ht.2 hy.2.2 hxs
        cases o with
        | none => obtain ⟨q1, q2⟩ := h1.none rfl; exact absurd q2 (hy.1 q1)
        | some m =>
          cases hm
          exact (h1.run.trans h2).imp fun Dg hq => .cons (hq.1 m rfl) hq.2
theorem marf_desc (hord : ∀ dep, (ord dep).Perm dep) (hpick : ∀ l, l ≠ [] → pick l ∈ l) (hOk : P.Ok) (hP : P.RoundTrips text) (hG : GraphTidy P h Θ oe text)
    (hd : DerefDesc P h Θ oe text pick d) : ∀ (xs : List (FInfo × GV)) (ds : List (FInfo × Ty)) (s s' : MSess) (ys : List (Bytes × MJ)) (dep : SMap Bytes),
      (∀ (k : Nat) (i : FInfo) (t : Ty), ds[k]? = some (i, t) → i.ignore = false → t.RoundTrips text ∧ i.forceString = false ∧ i.deprecatedBy = none) →
      GV.HasTyf P Θ xs ds → GV.Tidyf P h oe text xs ds → GV.marf ord oe d xs s = some (s', ys, dep) →
      (Run Θ s s' fun Dg => FieldsDesc P h Θ text pick ys xs ds Dg) ∧ FieldsMiss h oe ys xs
  | [], ds, s, s', ys, dep, hds, ht, hy, hm => by
    simp only [GV.marf] at hm
    cases hm
    exact ⟨Run.const fun _ k m hm => (by cases hm), fun q i x hq => by simp at hq⟩
  | (i, x) :: xs, ds, s, s', ys, dep, hds, ht, hy, hm => by
    rw [GV.HasTyf] at ht
    obtain ⟨t, r, rfl, t1, t2⟩ := ht
    rw [GV.Tidyf] at hy
    have hds' : ∀ (k : Nat) (i : FInfo) (t : Ty), r[k]? = some (i, t) → i.ignore = false → t.RoundTrips text ∧ i.forceString = false ∧ i.deprecatedBy = none :=
      fun k i t hk hi => hds (k + 1) i t (by simpa using hk) hi
    simp only [GV.marf] at hm
    split at hm
    · rename_i hi
      obtain ⟨k1, k2⟩ := marf_desc hord hpick hOk hP hG hd xs r s s' ys dep hds' t2 hy.2.2 hm
      refine ⟨k1.imp fun Dg hq k m hm => ?_, fun q i' x' hq => ?_⟩
      · obtain ⟨q, i', x', t', e1, e2, e3⟩ := hq k m hm
        exact ⟨q + 1, i', x', t', by simpa using e1, by simpa using e2, e3⟩
      · cases q with
        | zero => simp at hq; obtain ⟨rfl, rfl⟩ := hq; exact Or.inl hi
        | succ q => exact k2 q i' x' (by simpa using hq)
    · rename_i hi
      simp only [Bool.not_eq_true] at hi
      obtain ⟨d1, d2, d3⟩ := hds 0 i t rfl hi
      rw [d3] at hm
      simp only at hm
      cases hx : GV.mar ord oe d x s (some i) with
      | none => rw [hx] at hm; cases hm
      | some r1 =>
        obtain ⟨s1, o⟩ := r1
        rw [hx] at hm
        simp only at hm
        cases hxs : GV.marf ord oe d xs s1 with
        | none => rw [hxs] at hm; cases hm
        | some r2 =>
          obtain ⟨s2, zs, dep2⟩ := r2
          rw [hxs] at hm
          simp only at hm
          have h1 := mar_desc hord hpick hOk hP hG hd x t s s1 (some i) o d2 d1 t1 hy.2.1 hx
          obtain ⟨k1, k2⟩ := marf_desc hord hpick hOk hP hG hd xs r s1 s2 zs dep2 hds' t2 hy.2.2 hxs
          have lift : ∀ {Dg : Int → Nat}, FieldsDesc P h Θ text pick zs xs r Dg → FieldsDesc P h Θ text pick zs ((i, x) :: xs) ((i, t) :: r) Dg := by
            intro Dg hq k m hm
            obtain ⟨q, i', x', t', e1, e2, e3⟩ := hq k m hm
            exact ⟨q + 1, i', x', t', by simpa using e1, by simpa using e2, e3⟩
          cases o with
          | none =>
            cases hm
            refine ⟨(h1.run.trans k1).imp fun Dg hq => lift hq.2, fun q i' x' hq => ?_⟩
            cases q with
            | zero => simp at hq; obtain ⟨rfl, rfl⟩ := hq; exact Or.inr (Or.inr (h1.none rfl))
            | succ q => exact k2 q i' x' (by simpa using hq)
          | some m =>
            cases hm
            refine ⟨(h1.run.trans k1).imp fun Dg hq k m' hm => ?_, fun q i' x' hq => ?_⟩
            · rcases List.mem_cons.1 hm with hm | hm
              · cases hm; exact ⟨0, i, x, t, rfl, rfl, hi, rfl, hq.1 m rfl⟩
              · exact lift hq.2 k m' hm
            · cases q with
              | zero => simp at hq; obtain ⟨rfl, rfl⟩ := hq; exact Or.inr (Or.inl ⟨m, List.mem_cons_self ..⟩)
              | succ q =>
                rcases k2 q i' x' (by simpa using hq) with h | ⟨m', h⟩ | h
                · exact Or.inl h
                · exact Or.inr (Or.inl ⟨m', List.mem_cons_of_mem _ h⟩)
                · exact Or.inr (Or.inr h)
end
end

theorem gd_desc (hord : ∀ dep, (ord dep).Perm dep) (hpick : ∀ l, l ≠ [] → pick l ∈ l) (hOk : P.Ok) (hP : P.RoundTrips text) (hG : GraphTidy P h Θ oe text) :
    ∀ n, DerefDesc P h Θ oe text pick (gd ord oe h n) := by
  intro n
  induction n with
  | zero => intro s info a s' o _ hr; cases hr
  | succ n ih =>
    intro s info a s' o hf hr g hg
    rw [gd_succ hg] at hr
    obtain ⟨q1, q2, q3⟩ := hG a g hg
    refine ⟨mar_desc hord hpick hOk hP hG ih g (Θ a) s s' info o hf q2 q1 q3 hr, fun l hl => ?_⟩
    subst hl
    simp only [GV.mar] at hr
    cases hr; exact ⟨rfl, rfl⟩

/-- The document that `Marshal` makes describes the value. -/
theorem marshal_desc (hord : ∀ dep, (ord dep).Perm dep) (hpick : ∀ l, l ≠ [] → pick l ∈ l) (hOk : P.Ok) (hP : P.RoundTrips text) (hG : GraphTidy P h Θ oe text)
    {g : GV} {t : Ty} (ht : g.HasTy P Θ t) (hr : t.RoundTrips text) (hy : g.Tidy P h oe text t) (hne : oe = true → ¬ g.IsEmpty h none) {n : Nat} {j : J}
    (hm : marshal ord pick oe h n g = some j) : ∃ Dg, (j.seen text).Desc P h Θ Dg g t := by
  unfold marshal at hm
  cases hx : gmar ord oe h n g .init none with
  | none => rw [hx] at hm; cases hm
  | some r =>
    obtain ⟨s, o⟩ := r
    rw [hx] at hm
    rw [gmar_gd] at hx
    have hd := mar_desc hord hpick hOk hP hG (gd_desc hord hpick hOk hP hG n) g t _ _ _ _ rfl hr ht hy hx
    cases o with
    | none => obtain ⟨q1, q2⟩ := hd.none rfl; exact absurd q2 (hne q1)
    | some m =>
      cases hm
      obtain ⟨_, A, hA⟩ := hd.run
      have := hA A (fun e he => by cases he) fun _ _ _ => rfl
      exact ⟨A, this.2 m rfl s.live⟩

end
end Jsonutils
