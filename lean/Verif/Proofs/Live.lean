import Verif.Proofs.LiveCyc
import Verif.Proofs.Equals

/-! # Documents with live references -/

namespace Jsonutils

/-- A part of the output. -/
inductive SubM : MJ → MJ → Prop
  | refl (m) : SubM m m
  | arr {z x xs} : x ∈ xs → SubM z x → SubM z (.arr xs)
  | dict {z k x ms kvs} : (k, x) ∈ kvs → SubM z x → SubM z (.dict ms kvs)

theorem SubM.trans {a b c : MJ} (h1 : SubM a b) (h2 : SubM b c) : SubM a c := by
  induction h2 with
  | refl => exact h1
  | arr hx _ ih => exact .arr hx ih
  | dict hx _ ih => exact .dict hx ih

theorem mj_mem_refss {x : MJ} {xs : List MJ} (hx : x ∈ xs) {id : Nat} (hid : id ∈ x.refs) : id ∈ MJ.refss xs := by
  induction xs with
  | nil => cases hx
  | cons y ys ih =>
    rw [MJ.refss, List.mem_append]
    rcases List.mem_cons.1 hx with rfl | hx
    · exact .inl hid
    · exact .inr (ih hx)

theorem sub_refs {z m : MJ} (hs : SubM z m) {id : Nat} (hid : id ∈ z.refs) : id ∈ m.refs := by
  induction hs with
  | refl => exact hid
  | arr hx _ ih => rw [MJ.refs]; exact mj_mem_refss hx ih
  | dict hx _ ih =>
    rw [MJ.refs, refsf_flat, List.mem_flatMap]
    exact ⟨_, hx, ih⟩

theorem anchs_mem {T : Nat → Prop} {xs : List MJ} (ha : MJ.Anchs T xs) {x : MJ} (hx : x ∈ xs) : x.Anch T := by
  induction xs with
  | nil => cases hx
  | cons y ys ih =>
    rw [MJ.Anchs] at ha
    rcases List.mem_cons.1 hx with rfl | hx
    · exact ha.1
    · exact ih ha.2 hx

theorem sub_anch {T : Nat → Prop} {z m : MJ} (hs : SubM z m) (ha : m.Anch T) : z.Anch T := by
  induction hs with
  | refl => exact ha
  | arr hx _ ih => rw [MJ.Anch] at ha; exact ih (anchs_mem ha hx)
  | dict hx _ ih => rw [MJ.Anch, anchf_all] at ha; exact ih (ha.2 _ hx)

theorem mirs_mem {h : List GV} {oe : Bool} {Dg : Nat → Nat} : ∀ {ys : List MJ} {xs : List GV}, MJ.Mirs h oe Dg ys xs → ∀ y ∈ ys, ∃ x, y.Mir h oe Dg x
  | [], _, _, y, hy => by cases hy
  | y :: ys, xs, hm, y', hy => by
    rw [MJ.Mirs] at hm
    obtain ⟨pre, x, post, _, _, h1, h2⟩ := hm
    rcases List.mem_cons.1 hy with rfl | hy
    · exact ⟨x, h1⟩
    · exact mirs_mem h2 y' hy

theorem sub_mir {h : List GV} {oe : Bool} {Dg : Nat → Nat} {z m : MJ} (hs : SubM z m) : ∀ {g : GV}, m.Mir h oe Dg g → ∃ x, z.Mir h oe Dg x := by
  induction hs with
  | refl => exact fun hm => ⟨_, hm⟩
  | arr hx _ ih =>
    intro g hm
    rw [MJ.Mir] at hm
    obtain ⟨xs, _, h2⟩ := hm
    obtain ⟨x', h3⟩ := mirs_mem h2 _ hx
    exact ih h3
  | dict hx _ ih =>
    intro g hm
    rw [MJ.Mir] at hm
    obtain ⟨g', _, _, src, _, _, h2, _⟩ := hm
    obtain ⟨_, x', _, h3⟩ := (mirf_all.1 h2) _ _ hx
    exact ih h3

mutual
theorem nodeOf_some (id : Nat) : ∀ (m : MJ), id ∈ m.marks → ∃ n, m.nodeOf id = some n
  | .json _, h => by cases h
  | .ref _, h => by cases h
  | .arr xs, h => by rw [MJ.marks] at h; rw [MJ.nodeOf]; exact nodeOfs_some id xs h
  | .dict ms kvs, h => by
    rw [MJ.marks, List.mem_append] at h
    rw [MJ.nodeOf]
    split
    · exact ⟨_, rfl⟩
    · rename_i hc
      rcases h with h | h
      · exact nodeOff_some id kvs h
      · exact absurd (List.contains_iff_mem.2 h) hc
theorem nodeOfs_some (id : Nat) : ∀ (m : List MJ), id ∈ MJ.markss m → ∃ n, MJ.nodeOfs id m = some n
  | [], h => by cases h
  | x :: xs, h => by
    rw [MJ.markss, List.mem_append] at h
    rw [MJ.nodeOfs]
    cases hx : x.nodeOf id with
    | some n => exact ⟨n, rfl⟩
    | none =>
      rcases h with h | h
      · obtain ⟨n, hn⟩ := nodeOf_some id x h; rw [hx] at hn; cases hn
      · exact nodeOfs_some id xs h
theorem nodeOff_some (id : Nat) : ∀ (m : List (Bytes × MJ)), id ∈ MJ.marksf m → ∃ n, MJ.nodeOff id m = some n
  | [], h => by cases h
  | (_, x) :: xs, h => by
    rw [MJ.marksf, List.mem_append] at h
    rw [MJ.nodeOff]
    cases hx : x.nodeOf id with
    | some n => exact ⟨n, rfl⟩
    | none =>
      rcases h with h | h
      · obtain ⟨n, hn⟩ := nodeOf_some id x h; rw [hx] at hn; cases hn
      · exact nodeOff_some id xs h
end

mutual
theorem nodeOf_sub (id : Nat) : ∀ (m n : MJ), m.nodeOf id = some n → SubM n m ∧ ∃ ms kvs, n = .dict ms kvs ∧ id ∈ ms
  | .json _, n, h => by rw [MJ.nodeOf] at h; cases h; all_goals simp
  | .ref _, n, h => by rw [MJ.nodeOf] at h; cases h; all_goals simp
  | .arr xs, n, h => by
    rw [MJ.nodeOf] at h
    obtain ⟨x, hx, h1, h2⟩ := nodeOfs_sub id xs n h
    exact ⟨.arr hx h1, h2⟩
  | .dict ms kvs, n, h => by
    rw [MJ.nodeOf] at h
    split at h
    · rename_i hc
      cases h
      exact ⟨.refl _, ms, kvs, rfl, List.contains_iff_mem.1 hc⟩
    · obtain ⟨k, x, hx, h1, h2⟩ := nodeOff_sub id kvs n h
      exact ⟨.dict hx h1, h2⟩
theorem nodeOfs_sub (id : Nat) : ∀ (m : List MJ) (n : MJ), MJ.nodeOfs id m = some n → ∃ x ∈ m, SubM n x ∧ ∃ ms kvs, n = .dict ms kvs ∧ id ∈ ms
  | [], n, h => by rw [MJ.nodeOfs] at h; cases h
  | x :: xs, n, h => by
    rw [MJ.nodeOfs] at h
    cases hx : x.nodeOf id with
    | some n' =>
      rw [hx] at h; cases h
      exact ⟨x, List.mem_cons_self .., nodeOf_sub id x n hx⟩
    | none =>
      rw [hx] at h
      obtain ⟨y, h1, h2⟩ := nodeOfs_sub id xs n h
      exact ⟨y, List.mem_cons_of_mem _ h1, h2⟩
theorem nodeOff_sub (id : Nat) : ∀ (m : List (Bytes × MJ)) (n : MJ), MJ.nodeOff id m = some n → ∃ k x, (k, x) ∈ m ∧ SubM n x ∧ ∃ ms kvs, n = .dict ms kvs ∧ id ∈ ms
  | [], n, h => by rw [MJ.nodeOff] at h; cases h
  | (k, x) :: xs, n, h => by
    rw [MJ.nodeOff] at h
    cases hx : x.nodeOf id with
    | some n' =>
      rw [hx] at h; cases h
      exact ⟨k, x, List.mem_cons_self .., nodeOf_sub id x n hx⟩
    | none =>
      rw [hx] at h
      obtain ⟨k', y, h1, h2⟩ := nodeOff_sub id xs n h
      exact ⟨k', y, List.mem_cons_of_mem _ h1, h2⟩
end

section
variable {ord : SMap Bytes → List (Bytes × Bytes)} {pick : List Nat → Nat} {oe : Bool} {h : List GV}

theorem marshalLive_fst (fuel : Nat) (g : GV) : (marshalLive ord pick oe h fuel g).map Prod.fst = marshal ord pick oe h fuel g := by
  unfold marshalLive marshal
  cases gmar ord oe h fuel g .init none with
  | none => rfl
  | some r => obtain ⟨s, o⟩ := r; cases o <;> rfl

/-- What the proofs use of the run. -/
structure LiveRun (h : List GV) (oe : Bool) (pick : List Nat → Nat) (g : GV) (j : J) (D : Int → Option J) (m : MJ) (s : MSess) (Dg : Nat → Nat) : Prop where
  doc : j = m.finish s.live pick
  nodes : D = fun id => (m.nodeOf id.toNat).map (·.finish s.live pick)
  mir : m.Mir h oe Dg g
  single : m.Single
  pos : ∀ id ∈ m.marks, 0 < id
  refs : ∀ id ∈ m.refs, id ∈ m.marks ∧ s.On id
  anch : m.Anch s.On

theorem marshalLive_run (hord : ∀ dep, (ord dep).Perm dep) {g : GV} (hg : GraphClean h g) {n : Nat} {j : J} {D : Int → Option J}
    (hm : marshalLive ord pick oe h n g = some (j, D)) : (Dropped h oe g none ∧ j = .null ∧ D = fun _ => none) ∨ ∃ m s Dg, LiveRun h oe pick g j D m s Dg := by
  unfold marshalLive at hm
  rw [gmar_gd] at hm
  cases hr : GV.mar ord oe (gd ord oe h n) g .init none with
  | none => rw [hr] at hm; cases hm
  | some r =>
    obtain ⟨s, o⟩ := r
    rw [hr] at hm
    have hg0 : MSess.init.Good := by intro e he; cases he
    have ho0 : MSess.init.Ord := ⟨by simp [MSess.init], by simp [MSess.init], by simp [MSess.init]⟩
    have res := mar_refs hord (gd_refs hord hg.2 n) (gd_dang n) g .init none s o hg.1 hg0 rfl hr
    have mir := mar_mir hord (gd_mir hord hg.2 n) g .init s none o rfl hg.1 hr
    have anch := mar_anch hord (gd_refs hord hg.2 n) (gd_anch hord hg.2 n) (gd_dang n) g .init none s o hg.1 hg0 ho0 rfl hr
    cases o with
    | none => simp only [Option.some.injEq, Prod.mk.injEq] at hm; exact .inl ⟨mir.none rfl, hm.1.symm, hm.2.symm⟩
    | some m =>
      simp only [Option.some.injEq, Prod.mk.injEq] at hm
      obtain ⟨_, A, hA⟩ := mir.run
      refine .inr ⟨m, s, A, hm.1.symm, hm.2.symm, (hA A (fun e he => by cases he) fun _ _ _ => rfl).2 m rfl, res.single, fun id hid => (res.inv.range id hid).1, ?_, anch⟩
      intro k hk
      obtain ⟨e, he, hek, _⟩ := res.inv.refs k hk
      refine ⟨?_, List.mem_map.2 ⟨e, he, hek⟩⟩
      obtain ⟨old, new, h3, h4, h5, _⟩ := res.inv.tr
      have : old = [] := by
        have h4' : Bumped [] old := h4
        cases h4'; rfl
      subst this
      rw [h3, List.nil_append] at he
      rw [← hek]; exact (h5 e he).2

theorem via_strip {x y z : GV} (hv : Via h x y) (hs : Strip h y z) : Strip h x z := by
  induction hv with
  | refl => exact hs
  | iface _ ih => exact .iface (ih hs)
  | shared ha _ ih => exact .shared ha (ih hs)

theorem strip_fun {x y z : GV} (h1 : Strip h x y) (h2 : Strip h x z) : y = z := by
  induction h1 with
  | leaf _ => cases h2; rfl
  | jsonPtr _ => cases h2; rfl
  | seq _ => cases h2; rfl
  | map _ => cases h2; rfl
  | struct _ => cases h2; rfl
  | iface _ ih => cases h2 with | iface h2 => exact ih h2
  | ptr ha _ ih => cases h2 with | ptr hb h2 => rw [ha] at hb; cases hb; exact ih h2
  | shared ha _ ih => cases h2 with | shared hb h2 => rw [ha] at hb; cases hb; exact ih h2

theorem elems_of {Dg : Nat → Nat} {live : Nat → Bool} {m : MJ} : ∀ {ys : List MJ} {xs : List GV}, MJ.Mirs h oe Dg ys xs → (∀ y ∈ ys, SubM y m) →
    Elems h oe (fun y x => ∃ z, SubM z m ∧ y = z.finish live pick ∧ z.Mir h oe Dg x) (MJ.finishs live pick ys) xs := by
  have drops : ∀ {R : J → GV → Prop} {ys : List J} {pre xs : List GV}, (∀ z ∈ pre, Dropped h oe z none) → Elems h oe R ys xs → Elems h oe R ys (pre ++ xs) := by
    intro R ys pre xs hp he
    induction pre with
    | nil => exact he
    | cons p ps ih =>
      have := hp p (List.mem_cons_self ..)
      exact .drop this.1 this.2 (ih fun z hz => hp z (List.mem_cons_of_mem _ hz))
  intro ys
  induction ys with
  | nil =>
    intro xs hm _
    rw [MJ.Mirs] at hm
    have := drops (R := fun y x => ∃ z, SubM z m ∧ y = z.finish live pick ∧ z.Mir h oe Dg x) hm .nil
    rw [List.append_nil] at this
    exact this
  | cons y ys ih =>
    intro xs hm hs
    rw [MJ.Mirs] at hm
    obtain ⟨pre, x, post, rfl, h1, h2, h3⟩ := hm
    exact drops h1 (.keep ⟨y, hs y (List.mem_cons_self ..), rfl, h2⟩ (ih h3 fun z hz => hs z (List.mem_cons_of_mem _ hz)))

theorem getMapL_dict {D : Int → Option J} {y : J} {i : Int} {es : SMap J} (hy : y.live D = .dict i es) : y.getMapL D [] = .ok es := by
  simp [J.getMapL, hy, J.getMap, dictGet]

theorem getMapL_inv {D : Int → Option J} {y : J} {es : SMap J} (hy : y.getMapL D [] = .ok es) : ∃ i, y.live D = .dict i es := by
  unfold J.getMapL at hy
  cases hl : y.live D with
  | dict i kvs => rw [hl] at hy; simp [J.getMap, dictGet] at hy; subst hy; exact ⟨i, rfl⟩
  | _ => rw [hl] at hy; simp [J.getMap] at hy

theorem sorted_finish {live : Nat → Bool} {es : List (Bytes × MJ)} (hs : SMap.Sorted es) : SMap.Sorted (MJ.finishf live pick es) := by
  rw [finishf_map]
  refine sorted_by_keys (b := es) ?_ hs
  simp [List.map_map]

theorem nodup_fst {α β : Type} {l : List (α × β)} (hn : (l.map (·.1)).Nodup) {k : α} {a b : β} (ha : (k, a) ∈ l) (hb : (k, b) ∈ l) : a = b := by
  induction l with
  | nil => cases ha
  | cons x xs ih =>
    simp only [List.map_cons, List.nodup_cons] at hn
    rcases List.mem_cons.1 ha with rfl | ha' <;> rcases List.mem_cons.1 hb with hb' | hb'
    · cases hb'; rfl
    · exact absurd (List.mem_map.2 ⟨_, hb', rfl⟩) hn.1
    · subst hb'; exact absurd (List.mem_map.2 ⟨_, ha', rfl⟩) hn.1
    · exact ih hn.2 ha' hb'

/-- The dictionary that a reference holds. -/
theorem LiveRun.ref {g : GV} {j : J} {D : Int → Option J} {m : MJ} {s : MSess} {Dg : Nat → Nat} (hr : LiveRun h oe pick g j D m s Dg) {id : Nat} (hid : id ∈ m.refs) :
    ∃ ms kvs, SubM (.dict ms kvs) m ∧ id ∈ ms ∧ D id = some ((MJ.dict ms kvs).finish s.live pick) ∧ MJ.refsf kvs ≠ [] := by
  obtain ⟨h1, h2⟩ := hr.refs id hid
  obtain ⟨n, hn⟩ := nodeOf_some id m h1
  obtain ⟨h3, ms, kvs, rfl, h4⟩ := nodeOf_sub id m n hn
  refine ⟨ms, kvs, h3, h4, ?_, ?_⟩
  · rw [hr.nodes]; simp [hn]
  · have := sub_anch h3 hr.anch
    rw [MJ.Anch] at this
    exact this.1 id h4 h2

theorem finish_dict_shape (live : Nat → Bool) (ms : List Nat) (kvs : List (Bytes × MJ)) : ∃ i, (MJ.dict ms kvs).finish live pick = .dict i (MJ.finishf live pick kvs) :=
  ⟨_, by rw [MJ.finish]⟩

theorem LiveRun.mirrors {g : GV} {j : J} {D : Int → Option J} {m : MJ} {s : MSess} {Dg : Nat → Nat} (hr : LiveRun h oe pick g j D m s Dg) :
    Mirrors h oe (fun y x => ∃ z, SubM z m ∧ y = z.finish s.live pick ∧ z.Mir h oe Dg x) D := by
  have hdict : ∀ {y : J} {x : GV} {ms : List Nat} {es : List (Bytes × MJ)} {i : Int} {g' : GV}, SubM (.dict ms es) m → y.live D = .dict i (MJ.finishf s.live pick es) → Strip h x g' →
      SMap.Sorted es → (∃ src, ((∃ kvs, g' = .map kvs ∧ src = mapSrc kvs) ∨ (∃ fs, g' = .struct fs ∧ src = fieldSrc fs)) ∧ (src.map (·.1)).Nodup ∧ MJ.Mirf h oe Dg es src ∧
        ∀ k info x, (k, info, x) ∈ src → (∃ m, (k, m) ∈ es) ∨ Dropped h oe x info) → ∃ x', Strip h x x' ∧ match x' with
        | .leaf l => l.marshal none false = some y
        | .jsonPtr j => y = j
        | .seq xs => ∃ ys, y = .arr ys ∧ Elems h oe (fun y x => ∃ z, SubM z m ∧ y = z.finish s.live pick ∧ z.Mir h oe Dg x) ys xs
        | .map kvs => ∃ es, y.getMapL D [] = .ok es ∧ Entries h oe (fun y x => ∃ z, SubM z m ∧ y = z.finish s.live pick ∧ z.Mir h oe Dg x) es (mapSrc kvs)
        | .struct fs => ∃ es, y.getMapL D [] = .ok es ∧ Entries h oe (fun y x => ∃ z, SubM z m ∧ y = z.finish s.live pick ∧ z.Mir h oe Dg x) es (fieldSrc fs)
        | _ => False := by
    intro y x ms es i g' hsub hl hst hso hsrc
    obtain ⟨src, h1, h2, h3, h4⟩ := hsrc
    rw [mirf_all] at h3
    have hent : Entries h oe (fun y x => ∃ z, SubM z m ∧ y = z.finish s.live pick ∧ z.Mir h oe Dg x) (MJ.finishf s.live pick es) src := by
      refine ⟨sorted_finish hso, ?_, ?_⟩
      · intro k y' hy'
        rw [finishf_map, List.mem_map] at hy'
        obtain ⟨⟨k', z⟩, hz, he⟩ := hy'
        cases he
        obtain ⟨info, x', e1, e2⟩ := h3 _ _ hz
        exact ⟨info, x', e1, z, (SubM.dict hz (.refl _)).trans hsub, rfl, e2⟩
      · intro k info x' hx'
        rcases h4 k info x' hx' with ⟨z, hz⟩ | h
        · obtain ⟨info', x'', e1, e2⟩ := h3 _ _ hz
          have := nodup_fst h2 hx' e1
          cases this
          exact .inl ⟨z.finish s.live pick, by rw [finishf_map, List.mem_map]; exact ⟨_, hz, rfl⟩, z, (SubM.dict hz (.refl _)).trans hsub, rfl, e2⟩
        · exact .inr h
    rcases h1 with ⟨kvs, rfl, rfl⟩ | ⟨fs, rfl, rfl⟩
    · exact ⟨_, hst, _, getMapL_dict hl, hent⟩
    · exact ⟨_, hst, _, getMapL_dict hl, hent⟩
  have hself : ∀ {g' : GV}, ((∃ src, ((∃ kvs, g' = .map kvs ∧ src = mapSrc kvs) ∨ (∃ fs, g' = .struct fs ∧ src = fieldSrc fs)))) → Strip h g' g' := by
    rintro g' ⟨src, ⟨kvs, rfl, _⟩ | ⟨fs, rfl, _⟩⟩
    · exact .map _
    · exact .struct _
  rintro y x ⟨z, hz, rfl, hm⟩
  cases z with
  | json j =>
    rw [MJ.Mir] at hm
    rw [MJ.finish]
    rcases hm.2 with ⟨l, h1 | ⟨a, h1, h2⟩, h3⟩ | h1
    · exact ⟨.leaf l, via_strip h1 (.leaf l), h3⟩
    · exact ⟨.leaf l, via_strip h1 (.ptr h2 (.leaf l)), h3⟩
    · exact ⟨.jsonPtr j, via_strip h1 (.jsonPtr j), rfl⟩
  | ref id =>
    rw [MJ.Mir] at hm
    obtain ⟨ms, kvs, h1, h2, h3, _⟩ := hr.ref (sub_refs hz (id := id) (by simp [MJ.refs]))
    obtain ⟨x0, h4⟩ := sub_mir h1 hr.mir
    rw [MJ.Mir] at h4
    obtain ⟨g', h5, h6, h7⟩ := h4
    rcases h5 with ⟨_, h5⟩ | ⟨a, _, h8, h9⟩
    · subst h5; cases h2
    · obtain ⟨i, hi⟩ := finish_dict_shape (pick := pick) s.live ms kvs
      have hd := h9 id h2
      subst hd
      have hl : J.live D ((MJ.ref id).finish s.live pick) = .dict i (MJ.finishf s.live pick kvs) := by
        rw [MJ.finish, J.live, h3, hi]; rfl
      refine hdict h1 hl (via_strip hm (.ptr h8 (hself ⟨_, h7.choose_spec.1⟩))) h6 h7
  | arr ys =>
    rw [MJ.Mir] at hm
    obtain ⟨xs, h1, h2⟩ := hm
    rw [MJ.finish]
    exact ⟨.seq xs, via_strip h1 (.seq xs), _, rfl, elems_of h2 fun y hy => (SubM.arr hy (.refl _)).trans hz⟩
  | dict ms es =>
    rw [MJ.Mir] at hm
    obtain ⟨g', h5, h6, h7⟩ := hm
    obtain ⟨i, hi⟩ := finish_dict_shape (pick := pick) s.live ms es
    have hl : J.live D ((MJ.dict ms es).finish s.live pick) = .dict i (MJ.finishf s.live pick es) := by rw [hi]; rfl
    have hss := hself ⟨_, h7.choose_spec.1⟩
    rcases h5 with ⟨h5, _⟩ | ⟨a, h5, h8, _⟩
    · exact hdict hz hl (via_strip h5 hss) h6 h7
    · exact hdict hz hl (via_strip h5 (.ptr h8 hss)) h6 h7

/-! ### Interface -/

theorem allSome_none {α β : Type} {f : α → Option β} {xs : List α} {x : α} (hx : x ∈ xs) (hf : f x = none) : allSome f xs = none := by
  induction xs with
  | nil => cases hx
  | cons y ys ih =>
    rw [allSome]
    rcases List.mem_cons.1 hx with rfl | hx
    · rw [hf]
    · rw [ih hx]; cases f y <;> rfl

theorem refss_ne {xs : List MJ} (hx : MJ.refss xs ≠ []) : ∃ x ∈ xs, x.refs ≠ [] := by
  induction xs with
  | nil => exact absurd rfl hx
  | cons y ys ih =>
    by_cases hy : y.refs = []
    · rw [MJ.refss, hy, List.nil_append] at hx
      obtain ⟨x, h1, h2⟩ := ih hx
      exact ⟨x, List.mem_cons_of_mem _ h1, h2⟩
    · exact ⟨y, List.mem_cons_self .., hy⟩

theorem refsf_ne {xs : List (Bytes × MJ)} (hx : MJ.refsf xs ≠ []) : ∃ k x, (k, x) ∈ xs ∧ x.refs ≠ [] := by
  induction xs with
  | nil => exact absurd rfl hx
  | cons y ys ih =>
    obtain ⟨k, y⟩ := y
    by_cases hy : y.refs = []
    · rw [MJ.refsf, hy, List.nil_append] at hx
      obtain ⟨k, x, h1, h2⟩ := ih hx
      exact ⟨k, x, List.mem_cons_of_mem _ h1, h2⟩
    · exact ⟨k, y, List.mem_cons_self .., hy⟩

theorem LiveRun.interface_none {g : GV} {j : J} {D : Int → Option J} {m : MJ} {s : MSess} {Dg : Nat → Nat} (hr : LiveRun h oe pick g j D m s Dg) (n : Nat) :
    ∀ z, SubM z m → z.refs ≠ [] → J.interfaceL D n (z.finish s.live pick) = none := by
  induction n with
  | zero => intro z _ _; rfl
  | succ n ih =>
    intro z hz hne
    cases z with
    | json j => simp [MJ.refs] at hne
    | ref id =>
      obtain ⟨ms, kvs, h1, _, h3, h4⟩ := hr.ref (sub_refs hz (id := id) (by simp [MJ.refs]))
      rw [MJ.finish, J.interfaceL, h3]
      exact ih _ h1 (by simpa only [MJ.refs] using h4)
    | arr xs =>
      rw [MJ.refs] at hne
      obtain ⟨x, h1, h2⟩ := refss_ne hne
      rw [MJ.finish, J.interfaceL, finishs_map, allSome_none (List.mem_map.2 ⟨x, h1, rfl⟩) (ih x ((SubM.arr h1 (.refl _)).trans hz) h2)]
      rfl
    | dict ms kvs =>
      rw [MJ.refs] at hne
      obtain ⟨k, x, h1, h2⟩ := refsf_ne hne
      rw [MJ.finish, J.interfaceL, finishf_map, allSome_none (x := (k, x.finish s.live pick)) (List.mem_map.2 ⟨_, h1, rfl⟩)]
      · rfl
      · simp only [ih x ((SubM.dict h1 (.refl _)).trans hz) h2, Option.map_none]

mutual
theorem interface_plain (D : Int → Option J) : ∀ (v : J), v.ptrIds = [] → ∃ n, ∀ n', n ≤ n' → J.interfaceL D n' v = some v.interface
  | .null, _ => ⟨1, fun n' hn => by match n', hn with | n + 1, _ => rfl⟩
  | .bool _, _ => ⟨1, fun n' hn => by match n', hn with | n + 1, _ => rfl⟩
  | .int _, _ => ⟨1, fun n' hn => by match n', hn with | n + 1, _ => rfl⟩
  | .float _ _, _ => ⟨1, fun n' hn => by match n', hn with | n + 1, _ => rfl⟩
  | .str _, _ => ⟨1, fun n' hn => by match n', hn with | n + 1, _ => rfl⟩
  | .ptr id, hp => by simp [J.ptrIds] at hp
  | .arr xs, hp => by
    rw [J.ptrIds] at hp
    obtain ⟨n, hn⟩ := interface_plains D xs hp
    refine ⟨n + 1, fun n' h => ?_⟩
    match n', h with
    | k + 1, h => rw [J.interfaceL, hn k (by omega)]; rfl
  | .dict i kvs, hp => by
    rw [J.ptrIds] at hp
    obtain ⟨n, hn⟩ := interface_plainf D kvs hp
    refine ⟨n + 1, fun n' h => ?_⟩
    match n', h with
    | k + 1, h => rw [J.interfaceL, hn k (by omega)]; rfl
theorem interface_plains (D : Int → Option J) : ∀ (v : List J), J.ptrIdss v = [] → ∃ n, ∀ n', n ≤ n' → allSome (J.interfaceL D n') v = some (J.interfaces v)
  | [], _ => ⟨0, fun _ _ => rfl⟩
  | x :: xs, hp => by
    rw [J.ptrIdss, List.append_eq_nil_iff] at hp
    obtain ⟨n1, h1⟩ := interface_plain D x hp.1
    obtain ⟨n2, h2⟩ := interface_plains D xs hp.2
    refine ⟨max n1 n2, fun n' h => ?_⟩
    rw [allSome, h1 n' (by omega), h2 n' (by omega), J.interfaces]
theorem interface_plainf (D : Int → Option J) : ∀ (v : List (Bytes × J)), J.ptrIdsf v = [] →
    ∃ n, ∀ n', n ≤ n' → allSome (fun p : Bytes × J => (J.interfaceL D n' p.2).map (fun i => (p.1, i))) v = some (J.interfacef v)
  | [], _ => ⟨0, fun _ _ => rfl⟩
  | (k, x) :: xs, hp => by
    rw [J.ptrIdsf, List.append_eq_nil_iff] at hp
    obtain ⟨n1, h1⟩ := interface_plain D x hp.1
    obtain ⟨n2, h2⟩ := interface_plainf D xs hp.2
    refine ⟨max n1 n2, fun n' h => ?_⟩
    rw [allSome, h1 n' (by omega), h2 n' (by omega), J.interfacef]
    rfl
end

/-! ### Equals -/

section
variable {g : GV} {j : J} {D : Int → Option J} {m : MJ} {s : MSess} {Dg : Nat → Nat}

mutual
theorem LiveRun.equals_self (hr : LiveRun h oe pick g j D m s Dg) : ∀ (z : MJ), SubM z m → z.refs ≠ [] →
    J.equalsL D (z.finish s.live pick) (z.finish s.live pick) = false
  | .json _, hz, hne => by simp [MJ.refs] at hne
  | .ref id, hz, hne => by
    obtain ⟨ms, kvs, h1, _, h3, _⟩ := hr.ref (sub_refs hz (id := id) (by simp [MJ.refs]))
    obtain ⟨i, hi⟩ := finish_dict_shape (pick := pick) s.live ms kvs
    rw [MJ.finish, J.equalsL, J.live, h3, hi]
    · rfl
    all_goals simp
  | .arr xs, hz, hne => by
    rw [MJ.refs] at hne
    rw [MJ.finish, J.equalsL]
    simp only [J.live]
    rw [hr.equals_selfs xs (fun x hx => (SubM.arr hx (.refl _)).trans hz) hne]
    simp
  | .dict ms kvs, hz, hne => by
    rw [MJ.refs] at hne
    rw [MJ.finish, J.equalsL]
    simp only [J.live]
    obtain ⟨x, hm⟩ := sub_mir hz hr.mir
    rw [MJ.Mir] at hm
    obtain ⟨_, _, hso, _⟩ := hm
    rw [hr.equals_selff kvs (fun k x hx => (SubM.dict hx (.refl _)).trans hz) hne _ (fun k x hx => ?_)]
    · simp
    · exact smGet_of_mem (sorted_finish hso) (by rw [finishf_map]; exact List.mem_map.2 ⟨_, hx, rfl⟩)
theorem LiveRun.equals_selfs (hr : LiveRun h oe pick g j D m s Dg) : ∀ (xs : List MJ), (∀ x ∈ xs, SubM x m) → MJ.refss xs ≠ [] →
    J.equalsLs D (MJ.finishs s.live pick xs) (MJ.finishs s.live pick xs) = false
  | [], _, hne => absurd rfl hne
  | x :: xs, hs, hne => by
    rw [MJ.finishs, J.equalsLs]
    by_cases hx : x.refs = []
    · rw [MJ.refss, hx, List.nil_append] at hne
      rw [hr.equals_selfs xs (fun y hy => hs y (List.mem_cons_of_mem _ hy)) hne, Bool.and_false]
    · rw [hr.equals_self x (hs x (List.mem_cons_self ..)) hx, Bool.false_and]
theorem LiveRun.equals_selff (hr : LiveRun h oe pick g j D m s Dg) : ∀ (xs : List (Bytes × MJ)), (∀ k x, (k, x) ∈ xs → SubM x m) → MJ.refsf xs ≠ [] →
    ∀ (M : SMap J), (∀ k x, (k, x) ∈ xs → smGet M k = some (x.finish s.live pick)) → J.equalsLf D M (MJ.finishf s.live pick xs) = false
  | [], _, hne, _, _ => absurd rfl hne
  | (k, x) :: xs, hs, hne, M, hM => by
    rw [MJ.finishf, J.equalsLf, hM k x (List.mem_cons_self ..)]
    simp only
    by_cases hx : x.refs = []
    · rw [MJ.refsf, hx, List.nil_append] at hne
      rw [hr.equals_selff xs (fun k y hy => hs k y (List.mem_cons_of_mem _ hy)) hne M (fun k y hy => hM k y (List.mem_cons_of_mem _ hy)), Bool.and_false]
    · rw [hr.equals_self x (hs k x (List.mem_cons_self ..)) hx, Bool.false_and]
end

theorem LiveRun.ptrIds (hr : LiveRun h oe pick g j D m s Dg) (hpick : ∀ l, l ≠ [] → pick l ∈ l) : j.ptrIds = [] ↔ m.refs = [] := by
  rw [hr.doc, (finish_ids s.live pick hpick m hr.single hr.pos).2]
  simp
end

/-! ### Paths -/

theorem getL_key {D : Int → Option J} {y y' : J} {i : Int} {es : SMap J} {k : Bytes} (hl : y.live D = .dict i es) (hk : smGet es k = some y') : y.getL D [k] = .ok y' := by
  unfold J.getL
  rw [hl]
  simp [J.get, dictGet, getLoop, hk]

theorem elems_all {R : J → GV → Prop} {ys : List J} {xs : List GV} (he : Elems h false R ys xs) : ys.length = xs.length ∧ ∀ (n : Nat) (x : GV), xs[n]? = some x → ∃ y, ys[n]? = some y ∧ R y x := by
  induction he with
  | nil => simp
  | keep hr _ ih =>
    refine ⟨by simp [ih.1], fun n x hn => ?_⟩
    cases n with
    | zero => simp at hn ⊢; subst hn; exact hr
    | succ n => simpa using ih.2 n x (by simpa using hn)
  | drop h0 _ _ _ => cases h0

theorem mirrors_nav {R : J → GV → Prop} {D : Int → Option J} (hR : Mirrors h false R D) {x x2 : GV} {p : List Sel} (hn : GoNav h x p x2) :
    ∀ {y : J}, R y x → ∃ y2, docNav D y p = some y2 ∧ R y2 x2 := by
  induction hn with
  | here => exact fun hy => ⟨_, rfl, hy⟩
  | @field x fs i x1 p x2 hs hm hi _ ih =>
    intro y hy
    obtain ⟨x', h1, h2⟩ := hR y x hy
    have := strip_fun h1 hs
    subst this
    obtain ⟨es, h3, h4⟩ := h2
    obtain ⟨k, hk⟩ := getMapL_inv h3
    rcases h4.complete i.name (some i) x1 (fieldSrc_mem.2 ⟨i, hm, hi, rfl, rfl⟩) with ⟨y', h5, h6⟩ | ⟨h0, _⟩
    · obtain ⟨y2, h7, h8⟩ := ih h6
      refine ⟨y2, ?_, h8⟩
      rw [docNav, getL_key hk (smGet_of_mem h4.sorted h5)]
      exact h7
    · cases h0
  | @entry x kvs k x1 p x2 hs hm _ ih =>
    intro y hy
    obtain ⟨x', h1, h2⟩ := hR y x hy
    have := strip_fun h1 hs
    subst this
    obtain ⟨es, h3, h4⟩ := h2
    obtain ⟨i, hk⟩ := getMapL_inv h3
    rcases h4.complete k none x1 (mapSrc_mem.2 ⟨hm, rfl⟩) with ⟨y', h5, h6⟩ | ⟨h0, _⟩
    · obtain ⟨y2, h7, h8⟩ := ih h6
      refine ⟨y2, ?_, h8⟩
      rw [docNav, getL_key hk (smGet_of_mem h4.sorted h5)]
      exact h7
    · cases h0
  | @elem x xs n x1 p x2 hs hm _ ih =>
    intro y hy
    obtain ⟨x', h1, h2⟩ := hR y x hy
    have := strip_fun h1 hs
    subst this
    obtain ⟨ys, rfl, h4⟩ := h2
    obtain ⟨hl, he⟩ := elems_all h4
    obtain ⟨y', h5, h6⟩ := he n x1 hm
    obtain ⟨y2, h7, h8⟩ := ih h6
    refine ⟨y2, ?_, h8⟩
    have hlt : n < ys.length := (List.getElem?_eq_some_iff.1 h5).1
    have : J.getAtL D (.arr ys) ((n : Nat) : Int) [] = .ok y' := by
      simp only [J.getAtL, J.live, J.getAt, arrGetAt]
      have h0 : ¬ ((n : Nat) : Int) < 0 := by omega
      simp [h0, hlt, (List.getElem?_eq_some_iff.1 h5).2]
    rw [docNav, this]
    exact h7

theorem mirrors_stands {R : J → GV → Prop} {D : Int → Option J} (hR : Mirrors h false R D) {y : J} {x : GV} (hy : R y x) : Stands h D y x := by
  obtain ⟨x', h1, h2⟩ := hR y x hy
  refine ⟨x', h1, ?_⟩
  have keys : ∀ {es : SMap J} {src : List (Bytes × Option FInfo × GV)}, Entries h false R es src → ∀ k, k ∈ smKeys es ↔ ∃ info x, (k, info, x) ∈ src := by
    intro es src he k
    constructor
    · intro hk
      obtain ⟨⟨k', y⟩, h3, rfl⟩ := List.mem_map.1 (show k ∈ es.map (·.1) from hk)
      obtain ⟨info, x, h4, _⟩ := he.source k' y h3
      exact ⟨info, x, h4⟩
    · rintro ⟨info, x, hx⟩
      rcases he.complete k info x hx with ⟨y, h3, _⟩ | ⟨h0, _⟩
      · exact List.mem_map.2 ⟨_, h3, rfl⟩
      · cases h0
  cases x' with
  | leaf l => exact h2
  | jsonPtr j => exact h2
  | seq xs =>
    obtain ⟨ys, h3, h4⟩ := h2
    exact ⟨ys, h3, (elems_all h4).1⟩
  | map kvs =>
    obtain ⟨es, h3, h4⟩ := h2
    refine ⟨es, h3, fun k => (keys h4 k).trans ?_⟩
    constructor
    · rintro ⟨info, x, hx⟩; exact ⟨x, (mapSrc_mem.1 hx).1⟩
    · rintro ⟨x, hx⟩; exact ⟨none, x, mapSrc_mem.2 ⟨hx, rfl⟩⟩
  | struct fs =>
    obtain ⟨es, h3, h4⟩ := h2
    refine ⟨es, h3, fun k => (keys h4 k).trans ?_⟩
    constructor
    · rintro ⟨info, x, hx⟩
      obtain ⟨i, a, b, c, _⟩ := fieldSrc_mem.1 hx
      exact ⟨i, x, a, b, c⟩
    · rintro ⟨i, x, a, b, c⟩; exact ⟨some i, x, fieldSrc_mem.2 ⟨i, a, b, c, rfl⟩⟩
  | iface _ => exact h2
  | ptr _ => exact h2
  | shared _ => exact h2
end

/-! ### Paths in one call -/

theorem getLoop_steps (D : Int → Option J) : ∀ (ks : List Bytes) (i : Int) (kvs : SMap J), ks ≠ [] → (∀ y, getLoop smGet kvs ks = .ok y → docNav D (.dict i kvs) (ks.map .key) = some y) ∧
    ∀ y, docNav D (.dict i kvs) (ks.map .key) = some y → getLoop smGet kvs ks = .ok y ∨
      (getLoop smGet kvs ks = .err .invalidDict ∧ ∃ p q id, p ≠ [] ∧ q ≠ [] ∧ ks = p ++ q ∧ docNav D (.dict i kvs) (p.map .key) = some (.ptr id))
  | [], _, _, h => absurd rfl h
  | [k], i, kvs, _ => by
    cases hk : smGet kvs k with
    | none => simp [getLoop, docNav, J.getL, J.live, J.get, dictGet, hk]
    | some v => simp [getLoop, docNav, J.getL, J.live, J.get, dictGet, hk]
  | k :: k2 :: ks, i, kvs, _ => by
    cases hk : smGet kvs k with
    | none => simp [getLoop, docNav, J.getL, J.live, J.get, dictGet, hk]
    | some v =>
      have hg : J.getL D (.dict i kvs) [k] = .ok v := getL_key rfl hk
      have hn : ∀ p, docNav D (.dict i kvs) (.key k :: p) = docNav D v p := by intro p; rw [docNav, hg]
      rw [getLoop, hk, List.map_cons, hn]
      cases v with
      | dict i' kvs' =>
        obtain ⟨h1, h2⟩ := getLoop_steps D (k2 :: ks) i' kvs' (by simp)
        refine ⟨h1, fun y hy => ?_⟩
        rcases h2 y hy with h | ⟨h, p, q, id, hp, hq, he, hd⟩
        · exact .inl h
        · refine .inr ⟨h, k :: p, q, id, by simp, hq, by rw [he]; rfl, ?_⟩
          rw [List.map_cons, hn]; exact hd
      | ptr id =>
        refine ⟨by simp, fun y hy => .inr ⟨rfl, [k], k2 :: ks, id, by simp, by simp, rfl, ?_⟩⟩
        rw [List.map_cons, hn]; rfl
      | _ => refine ⟨by simp, fun y hy => ?_⟩; simp [docNav, J.getL, J.live, J.get] at hy

/-! ### Determinism, and references that hold nothing -/

theorem allSome_mono {α β : Type} {f f' : α → Option β} : ∀ {xs : List α}, (∀ x ∈ xs, ∀ y, f x = some y → f' x = some y) → ∀ {ys : List β}, allSome f xs = some ys → allSome f' xs = some ys
  | [], _, _, h => h
  | x :: xs, hf, ys, h => by
    rw [allSome] at h ⊢
    cases h1 : f x with
    | none => rw [h1] at h; cases h
    | some y =>
      cases h2 : allSome f xs with
      | none => rw [h1, h2] at h; cases h
      | some ys' =>
        rw [h1, h2] at h
        rw [hf x (List.mem_cons_self ..) y h1, allSome_mono (fun x hx => hf x (List.mem_cons_of_mem _ hx)) h2]
        exact h

theorem interfaceL_succ (D : Int → Option J) : ∀ (n : Nat) (v : J) (i : Iface), J.interfaceL D n v = some i → J.interfaceL D (n + 1) v = some i
  | 0, _, _, h => by cases h
  | n + 1, v, i, h => by
    have ih := interfaceL_succ D n
    rw [J.interfaceL.eq_def] at h ⊢
    simp only at h ⊢
    cases v with
    | arr xs =>
      obtain ⟨ys, h1, h2⟩ := Option.map_eq_some_iff.1 h
      exact Option.map_eq_some_iff.2 ⟨ys, allSome_mono (fun x _ y hy => ih x y hy) h1, h2⟩
    | dict _ kvs =>
      obtain ⟨ys, h1, h2⟩ := Option.map_eq_some_iff.1 h
      refine Option.map_eq_some_iff.2 ⟨ys, allSome_mono (fun x _ y hy => ?_) h1, h2⟩
      obtain ⟨z, h3, h4⟩ := Option.map_eq_some_iff.1 hy
      exact Option.map_eq_some_iff.2 ⟨z, ih _ _ h3, h4⟩
    | ptr id => exact ih _ _ h
    | _ => exact h

theorem interfaceL_le (D : Int → Option J) {n n' : Nat} (hn : n ≤ n') {v : J} {i : Iface} (h : J.interfaceL D n v = some i) : J.interfaceL D n' v = some i := by
  induction hn with
  | refl => exact h
  | step _ ih => exact interfaceL_succ D _ v i ih

theorem interface_det (D : Int → Option J) {n n' : Nat} {v : J} {i i' : Iface} (h : J.interfaceL D n v = some i) (h' : J.interfaceL D n' v = some i') : i' = i := by
  have h1 := interfaceL_le D (Nat.le_max_left n n') h
  have h2 := interfaceL_le D (Nat.le_max_right n n') h'
  rw [h1] at h2
  exact (Option.some.inj h2).symm

mutual
theorem equalsL_none : ∀ (w v : J), v.WF → w.WF → J.equalsL (fun _ => none) v w = v.equals w
  | .arr ys, v, hv, hw => by
    cases v with
    | arr xs =>
      simp only [J.equalsL, J.live, J.equals]
      rw [equalsL_nones ys xs hv hw]
    | _ => simp [J.equalsL, J.live, J.equals]
  | .dict i kvs2, v, hv, hw => by
    cases v with
    | dict i' kvs =>
      simp only [J.equalsL, J.live, J.equals]
      congr 1
      rw [Bool.eq_iff_iff, equalsf_iff, equalsL_nonef kvs2 kvs hv.1 hv.2 hw.2]
      constructor
      · exact fun h k x y h1 h2 => h k x y (smGet_of_mem hv.1 h1) (smGet_mem h2)
      · exact fun h k x y h1 h2 => h k x y (smGet_mem h1) (smGet_of_mem hw.1 h2)
    | _ => simp [J.equalsL, J.live, J.equals]
  | .null, v, _, _ => by cases v <;> simp [J.equalsL, J.live, J.equals]
  | .bool _, v, _, _ => by cases v <;> simp [J.equalsL, J.live, J.equals]
  | .int _, v, _, _ => by cases v <;> simp [J.equalsL, J.live, J.equals]
  | .float _ _, v, _, _ => by cases v <;> simp [J.equalsL, J.live, J.equals]
  | .str _, v, _, _ => by cases v <;> simp [J.equalsL, J.live, J.equals]
  | .ptr _, v, _, _ => by cases v <;> simp [J.equalsL, J.live, J.equals]
theorem equalsL_nones : ∀ (ys xs : List J), J.WFs xs → J.WFs ys → J.equalsLs (fun _ => none) xs ys = J.equalss xs ys
  | ys, [], _, _ => by cases ys <;> rfl
  | [], _ :: _, _, _ => rfl
  | y :: ys, x :: xs, hx, hy => by
    rw [J.equalsLs, J.equalss, equalsL_none y x hx.1 hy.1, equalsL_nones ys xs hx.2 hy.2]
theorem equalsL_nonef : ∀ (ys : List (Bytes × J)) (m : SMap J), SMap.Sorted m → J.WFf m → J.WFf ys →
    (J.equalsLf (fun _ => none) m ys = true ↔ ∀ k x y, smGet m k = some x → (k, y) ∈ ys → x.equals y = true)
  | [], m, _, _, _ => by simp [J.equalsLf]
  | (k, y) :: ys, m, hs, hm, hy => by
    rw [J.equalsLf, Bool.and_eq_true, equalsL_nonef ys m hs hm hy.2]
    constructor
    · rintro ⟨h1, h2⟩ k' x y' hg hmem
      rcases List.mem_cons.1 hmem with h | h
      · obtain ⟨rfl, rfl⟩ := Prod.mk.inj h
        rw [hg] at h1
        rw [← equalsL_none y' x (wff_mem hm (smGet_mem hg)) hy.1]
        exact h1
      · exact h2 k' x y' hg h
    · intro h
      refine ⟨?_, fun k' x y' hg hmem => h k' x y' hg (List.mem_cons_of_mem _ hmem)⟩
      cases hg : smGet m k with
      | none => rfl
      | some x =>
        simp only
        rw [equalsL_none y x (wff_mem hm (smGet_mem hg)) hy.1]
        exact h k x y hg (List.mem_cons_self ..)
end

/-! ### Node ids -/

mutual
theorem idHasRef_none : ∀ (j : J), j.nodeIds = [] → j.IdHasRef
  | .null, _ => trivial
  | .bool _, _ => trivial
  | .int _, _ => trivial
  | .float _ _, _ => trivial
  | .str _, _ => trivial
  | .ptr _, _ => trivial
  | .arr xs, h => by rw [J.nodeIds] at h; rw [J.IdHasRef]; exact idHasRefs_none xs h
  | .dict i kvs, h => by
    rw [J.nodeIds, List.append_eq_nil_iff] at h
    rw [J.IdHasRef]
    refine ⟨fun hi => ?_, idHasReff_none kvs h.1⟩
    rw [if_pos hi] at h
    exact absurd h.2 (by simp)
theorem idHasRefs_none : ∀ (j : List J), J.nodeIdss j = [] → J.IdHasRefs j
  | [], _ => trivial
  | x :: xs, h => by
    rw [J.nodeIdss, List.append_eq_nil_iff] at h
    exact ⟨idHasRef_none x h.1, idHasRefs_none xs h.2⟩
theorem idHasReff_none : ∀ (j : List (Bytes × J)), J.nodeIdsf j = [] → J.IdHasReff j
  | [], _ => trivial
  | (_, x) :: xs, h => by
    rw [J.nodeIdsf, List.append_eq_nil_iff] at h
    exact ⟨idHasRef_none x h.1, idHasReff_none xs h.2⟩
end

mutual
theorem finish_ptrIds (live : Nat → Bool) (pick : List Nat → Nat) : ∀ (m : MJ), (m.finish live pick).ptrIds = [] → m.refs = []
  | .json _, _ => rfl
  | .ref _, h => by rw [MJ.finish, J.ptrIds] at h; cases h
  | .arr xs, h => by rw [MJ.finish, J.ptrIds] at h; rw [MJ.refs]; exact finishs_ptrIds live pick xs h
  | .dict _ kvs, h => by rw [MJ.finish, J.ptrIds] at h; rw [MJ.refs]; exact finishf_ptrIds live pick kvs h
theorem finishs_ptrIds (live : Nat → Bool) (pick : List Nat → Nat) : ∀ (m : List MJ), J.ptrIdss (MJ.finishs live pick m) = [] → MJ.refss m = []
  | [], _ => rfl
  | x :: xs, h => by
    rw [MJ.finishs, J.ptrIdss, List.append_eq_nil_iff] at h
    rw [MJ.refss, finish_ptrIds live pick x h.1, finishs_ptrIds live pick xs h.2]; rfl
theorem finishf_ptrIds (live : Nat → Bool) (pick : List Nat → Nat) : ∀ (m : List (Bytes × MJ)), J.ptrIdsf (MJ.finishf live pick m) = [] → MJ.refsf m = []
  | [], _ => rfl
  | (_, x) :: xs, h => by
    rw [MJ.finishf, J.ptrIdsf, List.append_eq_nil_iff] at h
    rw [MJ.refsf, finish_ptrIds live pick x h.1, finishf_ptrIds live pick xs h.2]; rfl
end

mutual
theorem finish_idHasRef (s : MSess) (hpick : ∀ l, l ≠ [] → pick l ∈ l) : ∀ (m : MJ), m.Single → m.Anch s.On → (m.finish s.live pick).IdHasRef
  | .json j, hs, _ => by rw [MJ.finish]; exact idHasRef_none j hs.1
  | .ref _, _, _ => trivial
  | .arr xs, hs, ha => by
    rw [MJ.finish, J.IdHasRef]
    exact finish_idHasRefs s hpick xs hs ha
  | .dict ms kvs, hs, ha => by
    rw [MJ.finish, J.IdHasRef]
    rw [MJ.Single] at hs
    rw [MJ.Anch] at ha
    refine ⟨fun hi => ?_, finish_idHasReff s hpick kvs hs.2 ha.2⟩
    by_cases he : (ms.filter s.live).isEmpty
    · simp [he] at hi
    · have hne : ms.filter s.live ≠ [] := by simpa using he
      obtain ⟨h1, h2⟩ := List.mem_filter.1 (hpick _ hne)
      have hon : s.On (pick (ms.filter s.live)) := by
        obtain ⟨e, h3, h4⟩ := List.any_eq_true.1 h2
        simp only [Bool.and_eq_true, beq_iff_eq] at h4
        exact List.mem_map.2 ⟨e, h3, h4.1⟩
      have h5 := ha.1 _ h1 hon
      intro h6
      exact h5 (finishf_ptrIds s.live pick kvs h6)
theorem finish_idHasRefs (s : MSess) (hpick : ∀ l, l ≠ [] → pick l ∈ l) : ∀ (m : List MJ), MJ.Singles m → MJ.Anchs s.On m → J.IdHasRefs (MJ.finishs s.live pick m)
  | [], _, _ => trivial
  | x :: xs, hs, ha => ⟨finish_idHasRef s hpick x hs.1 ha.1, finish_idHasRefs s hpick xs hs.2 ha.2⟩
theorem finish_idHasReff (s : MSess) (hpick : ∀ l, l ≠ [] → pick l ∈ l) : ∀ (m : List (Bytes × MJ)), MJ.Singlef m → MJ.Anchf s.On m → J.IdHasReff (MJ.finishf s.live pick m)
  | [], _, _ => trivial
  | (_, x) :: xs, hs, ha => ⟨finish_idHasRef s hpick x hs.1 ha.1, finish_idHasReff s hpick xs hs.2 ha.2⟩
end

end Jsonutils
