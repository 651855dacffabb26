import Verif.Spec.Live
import Verif.Proofs.MarshalRefs
import Verif.Proofs.GraphMar

/-! # What `Marshal` makes of a pointer graph, reference by reference -/

namespace Jsonutils

/-- Through interfaces and shared stores. -/
inductive Via (h : List GV) : GV → GV → Prop
  | refl (x) : Via h x x
  | iface {x y} : Via h x y → Via h (.iface x) y
  | shared {a x y} : h[a]? = some x → Via h x y → Via h (.shared a) y

section
variable (h : List GV) (oe : Bool) (Dg : Nat → Nat)

/-- Dropped by `Marshal`. -/
def Dropped (x : GV) (info : Option FInfo) : Prop := oe = true ∧ EmptyV h x info

mutual
/-- The output stands for the value, reference `id` for a pointer to `Dg id`. -/
def MJ.Mir : MJ → GV → Prop
  | .json j, g => (j.nodeIds = [] ∧ j.ptrIds = []) ∧
    ((∃ l, (Via h g (.leaf l) ∨ ∃ a, Via h g (.ptr a) ∧ h[a]? = some (.leaf l)) ∧ l.marshal none false = some j) ∨ Via h g (.jsonPtr j))
  | .ref id, g => Via h g (.ptr (Dg id))
  | .arr ys, g => ∃ xs, Via h g (.seq xs) ∧ MJ.Mirs ys xs
  | .dict ms es, g => ∃ g', ((Via h g g' ∧ ms = []) ∨ ∃ a, Via h g (.ptr a) ∧ h[a]? = some g' ∧ ∀ id ∈ ms, Dg id = a) ∧ SMap.Sorted es ∧
    ∃ src, ((∃ kvs, g' = .map kvs ∧ src = mapSrc kvs) ∨ (∃ fs, g' = .struct fs ∧ src = fieldSrc fs)) ∧ (src.map (·.1)).Nodup ∧ MJ.Mirf es src ∧
      ∀ k info x, (k, info, x) ∈ src → (∃ m, (k, m) ∈ es) ∨ Dropped h oe x info
def MJ.Mirs : List MJ → List GV → Prop
  | [], xs => ∀ x ∈ xs, Dropped h oe x none
  | y :: ys, xs => ∃ pre x post, xs = pre ++ x :: post ∧ (∀ z ∈ pre, Dropped h oe z none) ∧ y.Mir x ∧ MJ.Mirs ys post
def MJ.Mirf : List (Bytes × MJ) → List (Bytes × Option FInfo × GV) → Prop
  | [], _ => True
  | (k, m) :: es, src => (∃ info x, (k, info, x) ∈ src ∧ m.Mir x) ∧ MJ.Mirf es src
end
end

section
variable {h : List GV} {oe : Bool} {Dg : Nat → Nat}

theorem mirf_all {es : List (Bytes × MJ)} {src : List (Bytes × Option FInfo × GV)} :
    MJ.Mirf h oe Dg es src ↔ ∀ k m, (k, m) ∈ es → ∃ info x, (k, info, x) ∈ src ∧ m.Mir h oe Dg x := by
  induction es with
  | nil => simp [MJ.Mirf]
  | cons e es ih =>
    obtain ⟨k, m⟩ := e
    rw [MJ.Mirf, ih]
    constructor
    · rintro ⟨h1, h2⟩ k' m' hm
      rcases List.mem_cons.1 hm with hm | hm
      · cases hm; exact h1
      · exact h2 k' m' hm
    · intro hh
      exact ⟨hh k m (List.mem_cons_self ..), fun k' m' hm => hh k' m' (List.mem_cons_of_mem _ hm)⟩

theorem mirs_drop {x : GV} (hx : Dropped h oe x none) : ∀ {ys : List MJ} {xs : List GV}, MJ.Mirs h oe Dg ys xs → MJ.Mirs h oe Dg ys (x :: xs)
  | [], xs, hs => by
    rw [MJ.Mirs] at hs ⊢
    intro z hz
    rcases List.mem_cons.1 hz with rfl | hz
    · exact hx
    · exact hs z hz
  | y :: ys, xs, hs => by
    rw [MJ.Mirs] at hs ⊢
    obtain ⟨pre, z, post, rfl, h1, h2, h3⟩ := hs
    refine ⟨x :: pre, z, post, rfl, fun w hw => ?_, h2, h3⟩
    rcases List.mem_cons.1 hw with rfl | hw
    · exact hx
    · exact h1 w hw

theorem mirs_keep {x : GV} {y : MJ} {ys : List MJ} {xs : List GV} (hx : y.Mir h oe Dg x) (hs : MJ.Mirs h oe Dg ys xs) : MJ.Mirs h oe Dg (y :: ys) (x :: xs) := by
  rw [MJ.Mirs]
  exact ⟨[], x, xs, rfl, by simp, hx, hs⟩

theorem mir_via {x g : GV} (hv : ∀ z, Via h x z → Via h g z) : ∀ {m : MJ}, m.Mir h oe Dg x → m.Mir h oe Dg g
  | .json j, hm => by
    rw [MJ.Mir] at hm ⊢
    refine ⟨hm.1, ?_⟩
    rcases hm.2 with ⟨l, h1 | ⟨a, h1, h2⟩, h3⟩ | h1
    · exact .inl ⟨l, .inl (hv _ h1), h3⟩
    · exact .inl ⟨l, .inr ⟨a, hv _ h1, h2⟩, h3⟩
    · exact .inr (hv _ h1)
  | .ref id, hm => by rw [MJ.Mir] at hm ⊢; exact hv _ hm
  | .arr ys, hm => by
    rw [MJ.Mir] at hm ⊢
    obtain ⟨xs, h1, h2⟩ := hm
    exact ⟨xs, hv _ h1, h2⟩
  | .dict ms es, hm => by
    rw [MJ.Mir] at hm ⊢
    obtain ⟨g', h1, h2⟩ := hm
    refine ⟨g', ?_, h2⟩
    rcases h1 with ⟨h1, h3⟩ | ⟨a, h1, h3⟩
    · exact .inl ⟨hv _ h1, h3⟩
    · exact .inr ⟨a, hv _ h1, h3⟩

theorem via_node {g g' : GV} (hn : g.IsNode) (hv : Via h g g') : g' = g := by
  cases hv with
  | refl => rfl
  | iface _ => exact (show False from hn).elim
  | shared _ _ => exact (show False from hn).elim

/-! ### The session -/

/-- The entries of the trace stand for the addresses that `Dg` says. -/
def AgreeD (Dg : Nat → Nat) (s : MSess) : Prop := ∀ e ∈ s.trace, Dg e.id = e.inf

/-- From session `s` to `s'`, `Q` holds of any table of addresses that agrees with the trace and with certain new entries. -/
def RunD (s s' : MSess) (Q : (Nat → Nat) → Prop) : Prop :=
  s.nodeIndex ≤ s'.nodeIndex ∧ ∃ A : Nat → Nat, ∀ Dg, AgreeD Dg s → (∀ id : Nat, s.nodeIndex < id → id ≤ s'.nodeIndex → Dg id = A id) → AgreeD Dg s' ∧ Q Dg

theorem RunD.imp {s s' : MSess} {Q Q' : (Nat → Nat) → Prop} (hr : RunD s s' Q) (hq : ∀ Dg, Q Dg → Q' Dg) : RunD s s' Q' := by
  obtain ⟨h1, A, h2⟩ := hr
  exact ⟨h1, A, fun Dg a b => ⟨(h2 Dg a b).1, hq Dg (h2 Dg a b).2⟩⟩

theorem RunD.const {s s' : MSess} (hs : s'.trace = s.trace) (hi : s.nodeIndex ≤ s'.nodeIndex) {Q : (Nat → Nat) → Prop} (hq : ∀ Dg, Q Dg) : RunD s s' Q :=
  ⟨hi, fun _ => 0, fun Dg a _ => ⟨fun e he => a e (by rw [← hs]; exact he), hq Dg⟩⟩

theorem RunD.trans {s s1 s2 : MSess} {Q Q' : (Nat → Nat) → Prop} (h1 : RunD s s1 Q) (h2 : RunD s1 s2 Q') : RunD s s2 (fun Dg => Q Dg ∧ Q' Dg) := by
  obtain ⟨i1, A1, r1⟩ := h1
  obtain ⟨i2, A2, r2⟩ := h2
  refine ⟨Nat.le_trans i1 i2, fun id => if id ≤ s1.nodeIndex then A1 id else A2 id, fun Dg a b => ?_⟩
  obtain ⟨a1, q1⟩ := r1 Dg a fun id h1 h2 => by rw [b id h1 (by omega)]; exact if_pos h2
  obtain ⟨a2, q2⟩ := r2 Dg a1 fun id h1 h2 => by rw [b id (by omega) h2]; exact if_neg (by omega)
  exact ⟨a2, q1, q2⟩

/-- What is shown of `marshalValue`. -/
structure MarMir (h : List GV) (oe : Bool) (s s' : MSess) (o : Option MJ) (info : Option FInfo) (g : GV) : Prop where
  run : RunD s s' fun Dg => ∀ m, o = some m → m.Mir h oe Dg g
  none : o = none → Dropped h oe g info
  node : g.IsNode → ∀ m, o = some m → ∃ kvs, m = .dict [] kvs

/-- For the dereferences. -/
def DerefMir (h : List GV) (oe : Bool) (d : MSess → Option FInfo → Nat → Option (MSess × Option MJ)) : Prop :=
  ∀ s info a s' o, optForce info = false → d s info a = some (s', o) → ∃ g, h[a]? = some g ∧ MarMir h oe s s' o info g ∧
    ∀ l, g = .leaf l → l.NoIds ∧ s' = s ∧ o = (l.marshal info oe).map .json

theorem leaf_doc {l : Leaf} {info : Option FInfo} {j : J} (hf : optForce info = false) (h : l.marshal info oe = some j) : l.marshal none false = some j := by
  have h0 : optForce none = false := rfl
  cases l with
  | nil => simp only [Leaf.marshal] at h ⊢; split at h <;> cases h; rfl
  | bool b => simp only [Leaf.marshal, marshalBoolean, hf] at h; split at h <;> cases h; simp [Leaf.marshal, marshalBoolean, h0]
  | int n => simp only [Leaf.marshal, marshalInt64, hf] at h; split at h <;> cases h; simp [Leaf.marshal, marshalInt64, h0]
  | float32 b => simp only [Leaf.marshal, marshalFloat32, hf] at h; split at h <;> cases h; simp [Leaf.marshal, marshalFloat32, h0]
  | float64 b => simp only [Leaf.marshal, marshalFloat64, hf] at h; split at h <;> cases h; simp [Leaf.marshal, marshalFloat64, h0]
  | str s => simp only [Leaf.marshal, marshalString] at h; split at h <;> cases h; simp [Leaf.marshal, marshalString]
  | tri t => cases t <;> simp only [Leaf.marshal, marshalTristate] at h <;> (try split at h) <;> cases h <;> simp [Leaf.marshal, marshalTristate]
  | time t => cases t <;> simp only [Leaf.marshal, marshalTime] at h <;> (try split at h) <;> cases h <;> simp [Leaf.marshal, marshalTime]
  | jsonVal j => simp only [Leaf.marshal] at h; split at h <;> cases h; simp [Leaf.marshal]
  | jsonIface j => simp only [Leaf.marshal] at h; cases h; rfl
  | std j => simp only [Leaf.marshal] at h; cases h; rfl
  | other => simp only [Leaf.marshal] at h; cases h; rfl

theorem ptr_mir {d : MSess → Option FInfo → Nat → Option (MSess × Option MJ)} (hd : DerefMir h oe d) {a : Nat} {s s' : MSess} {info : Option FInfo} {o : Option MJ}
    (hf : optForce info = false) (hT : ∀ g, h[a]? = some g → g.DictLike) (hr : marshalPtr a s (fun s1 => d s1 info a) = some (s', o)) :
    (o = none → Dropped h oe (.ptr a) info) ∧ (RunD s s' fun Dg => ∀ m, o = some m → m.Mir h oe Dg (.ptr a)) := by
  unfold marshalPtr at hr
  cases hfd : traceFind a none s.trace with
  | mk found tr =>
    have hen := traceFind_ents a none s.trace
    rw [hfd] at hr hen
    cases found with
    | some id =>
      simp only at hr
      cases hr
      have := traceFind_is a none s.trace id (by rw [hfd])
      rcases this with h | ⟨e, h1, h2, h3⟩
      · cases h
      · refine ⟨by simp, Nat.le_refl _, fun _ => 0, fun Dg hag _ => ⟨?_, ?_⟩⟩
        · intro e' he'
          obtain ⟨x, hx, q1, q2⟩ := hen e' he'
          rw [q1, q2]; exact hag x hx
        · intro m hm
          cases hm
          rw [MJ.Mir]
          have q1 := hag e h1
          rw [h2, h3] at q1
          rw [q1]; exact .refl _
    | none =>
      have htt : tr = s.trace := by
        have := traceFind_miss (a := a) s.trace (fun e he hea => traceFind_none a s.trace (by rw [hfd]) (List.mem_map.2 ⟨e, he, hea⟩))
        rw [hfd] at this; cases this; rfl
      subst htt
      simp only at hr
      cases hb2 : d ⟨s.nodeIndex + 1, s.trace ++ [⟨s.nodeIndex + 1, a, 1⟩]⟩ info a with
      | none => rw [hb2] at hr; cases hr
      | some r =>
        obtain ⟨s2, o2⟩ := r
        rw [hb2] at hr
        simp only at hr
        cases hr
        obtain ⟨g, ha, ⟨hrun, hnone, hnode⟩, hleaf⟩ := hd _ _ _ _ _ hf hb2
        refine ⟨?_, ?_⟩
        · intro hn
          have : o2 = none := by cases o2 <;> simp at hn; rfl
          obtain ⟨q1, q2⟩ := hnone this
          exact ⟨q1, .ptr ha q2⟩
        · by_cases hl : ∃ l, g = .leaf l
          · obtain ⟨l, rfl⟩ := hl
            obtain ⟨hno, rfl, rfl⟩ := hleaf l rfl
            refine ⟨by simp, fun _ => 0, fun Dg hag _ => ⟨?_, ?_⟩⟩
            · simp only [tracePop_push]; exact hag
            · intro m hm
              cases hj : l.marshal info oe with
              | none => rw [hj] at hm; cases hm
              | some j =>
                rw [hj] at hm; cases hm
                rw [MJ.mark, MJ.Mir]
                · exact ⟨leaf_single hno hj, .inl ⟨l, .inr ⟨a, .refl _, ha⟩, leaf_doc hf hj⟩⟩
                · simp
          · have hn : g.IsNode := by
              have := hT g ha
              cases g with
              | leaf l => exact absurd ⟨l, rfl⟩ hl
              | map _ => trivial
              | struct _ => trivial
              | _ => exact (show False from this).elim
            obtain ⟨i1, A, hA⟩ := hrun
            simp only at i1 hA
            refine ⟨by simp only; omega, fun id => if id = s.nodeIndex + 1 then a else A id, fun Dg hag hDg => ?_⟩
            simp only at hDg
            have hid : Dg (s.nodeIndex + 1) = a := by rw [hDg _ (by omega) (by omega)]; simp
            have hag' : AgreeD Dg ⟨s.nodeIndex + 1, s.trace ++ [⟨s.nodeIndex + 1, a, 1⟩]⟩ := by
              intro e he
              simp only [List.mem_append, List.mem_singleton] at he
              rcases he with he | rfl
              · exact hag e he
              · exact hid
            obtain ⟨r1, r2⟩ := hA Dg hag' fun id q1 q2 => by
              rw [hDg id (by omega) q2]; exact if_neg (by omega)
            refine ⟨fun e he => r1 e (tracePop_subset _ e he), ?_⟩
            intro m hm
            cases o2 with
            | none => cases hm
            | some m2 =>
              obtain ⟨kvs, rfl⟩ := hnode hn m2 rfl
              cases hm
              have := r2 _ rfl
              rw [MJ.Mir] at this
              obtain ⟨g', q1, q2⟩ := this
              simp only [MJ.mark, List.nil_append]
              rw [MJ.Mir]
              rcases q1 with ⟨q1, _⟩ | ⟨b, q1, _⟩
              · have := via_node hn q1
                subst this
                exact ⟨g', .inr ⟨a, .refl _, ha, by simpa using hid⟩, q2⟩
              · have := via_node hn q1
                subst this
                exact (show False from hn).elim

/-- Fields without a pair are ignored or empty. -/
def FieldsMissV (h : List GV) (oe : Bool) (ps : List (Bytes × MJ)) (fs : List (FInfo × GV)) : Prop :=
  ∀ (i : FInfo) (x : GV), (i, x) ∈ fs → i.ignore = false → (∃ m, (i.name, m) ∈ ps) ∨ Dropped h oe x (some i)

theorem fieldSrc_mem {fs : List (FInfo × GV)} {k : Bytes} {info : Option FInfo} {x : GV} :
    (k, info, x) ∈ fieldSrc fs ↔ ∃ i, (i, x) ∈ fs ∧ i.ignore = false ∧ i.name = k ∧ info = some i := by
  unfold fieldSrc
  simp only [List.mem_map, List.mem_filter, Bool.not_eq_true', Prod.mk.injEq, Prod.exists]
  constructor
  · rintro ⟨i, x', ⟨h1, h2⟩, h3, h4, rfl⟩
    exact ⟨i, h1, h2, h3, h4.symm⟩
  · rintro ⟨i, h1, h2, h3, h4⟩
    exact ⟨i, x, ⟨h1, h2⟩, h3, h4.symm, rfl⟩

theorem mapSrc_mem {kvs : List (Bytes × GV)} {k : Bytes} {info : Option FInfo} {x : GV} : (k, info, x) ∈ mapSrc kvs ↔ (k, x) ∈ kvs ∧ info = none := by
  unfold mapSrc
  simp only [List.mem_map, Prod.mk.injEq, Prod.exists]
  constructor
  · rintro ⟨k', x', h1, rfl, rfl, rfl⟩; exact ⟨h1, rfl⟩
  · rintro ⟨h1, rfl⟩; exact ⟨k, x, h1, rfl, rfl, rfl⟩

theorem pairs_mir {ps : List (Bytes × MJ)} (hk : (ps.map (·.1)).Nodup) {g : GV} {src : List (Bytes × Option FInfo × GV)}
    (hg : (∃ kvs, g = .map kvs ∧ src = mapSrc kvs) ∨ (∃ fs, g = .struct fs ∧ src = fieldSrc fs)) (hs : (src.map (·.1)).Nodup) (hm : MJ.Mirf h oe Dg ps src)
    (hc : ∀ k info x, (k, info, x) ∈ src → (∃ m, (k, m) ∈ ps) ∨ Dropped h oe x info) : (MJ.dict [] (pairsDict ps)).Mir h oe Dg g := by
  have hperm := pairsDict_perm ps hk
  rw [MJ.Mir]
  refine ⟨g, .inl ⟨.refl _, rfl⟩, pairsDict_sorted ps, src, hg, hs, ?_, fun k info x hx => ?_⟩
  · rw [mirf_all] at hm ⊢
    exact fun k m hkm => hm k m (hperm.subset hkm)
  · rcases hc k info x hx with ⟨m, hkm⟩ | h
    · exact .inl ⟨m, hperm.symm.subset hkm⟩
    · exact .inr h

section
variable {ord : SMap Bytes → List (Bytes × Bytes)} {d : MSess → Option FInfo → Nat → Option (MSess × Option MJ)}

mutual
theorem mar_mir (hord : ∀ dep, (ord dep).Perm dep) (hd : DerefMir h oe d) : ∀ (g : GV) (s s' : MSess) (info : Option FInfo) (o : Option MJ), optForce info = false →
      g.Clean h → GV.mar ord oe d g s info = some (s', o) → MarMir h oe s s' o info g
  | .leaf l, s, s', info, o, hf, hc, hm => by
    simp only [GV.mar] at hm
    cases hm
    rw [GV.Clean] at hc
    refine ⟨RunD.const rfl (Nat.le_refl _) fun Dg m hm => ?_, fun hn => ?_, fun hn => (show False from hn).elim⟩
    · cases hj : l.marshal info oe with
      | none => rw [hj] at hm; cases hm
      | some j =>
        rw [hj] at hm; cases hm
        rw [MJ.Mir]
        exact ⟨leaf_single hc hj, .inl ⟨l, .inl (.refl _), leaf_doc hf hj⟩⟩
    · have : l.marshal info oe = none := by cases hj : l.marshal info oe <;> simp [hj] at hn; rfl
      obtain ⟨h1, h2⟩ := (leaf_none_iff l info).1 this
      exact ⟨h1, .leaf h2⟩
  | .jsonPtr j, s, s', info, o, hf, hc, hm => by
    simp only [GV.mar] at hm
    cases hm
    rw [GV.Clean] at hc
    refine ⟨RunD.const (s := s) (s' := ⟨s.nodeIndex + 1, s.trace⟩) rfl (Nat.le_succ _) fun Dg m hm => ?_, by simp, fun hn => (show False from hn).elim⟩
    cases hm
    rw [MJ.Mir]
    exact ⟨hc, .inr (.refl _)⟩
  | .seq xs, s, s', info, o, hf, hc, hm => by
    rw [GV.Clean] at hc
    simp only [GV.mar] at hm
    split at hm
    · rename_i hcond
      cases hm
      refine ⟨RunD.const rfl (Nat.le_refl _) (by simp), fun _ => ⟨hcond.2.2, ?_⟩, fun hn => (show False from hn).elim⟩
      rw [List.isEmpty_iff.1 hcond.1]; exact .seq hcond.2.1
    · cases hx : GV.mars ord oe d xs s with
      | none => rw [hx] at hm; cases hm
      | some r =>
        obtain ⟨s1, ys⟩ := r
        rw [hx] at hm
        simp only [forceStr, hf, Bool.false_eq_true, if_false] at hm
        cases hm
        refine ⟨(mars_mir hord hd xs s s' ys hc hx).imp fun Dg hs m hm => ?_, by simp, fun hn => (show False from hn).elim⟩
        cases hm
        rw [MJ.Mir]
        exact ⟨xs, .refl _, hs⟩
  | .map kvs, s, s', info, o, hf, hc, hm => by
    rw [GV.Clean] at hc
    simp only [GV.mar] at hm
    split at hm
    · rename_i hcond
      cases hm
      refine ⟨RunD.const rfl (Nat.le_refl _) (by simp), fun _ => ⟨hcond.2.2, ?_⟩, fun _ => by simp⟩
      rw [List.isEmpty_iff.1 hcond.1]; exact .map hcond.2.1
    · cases hx : GV.marm ord oe d kvs s with
      | none => rw [hx] at hm; cases hm
      | some r =>
        obtain ⟨s1, ys⟩ := r
        rw [hx] at hm
        simp only [forceStr, hf, Bool.false_eq_true, if_false] at hm
        cases hm
        obtain ⟨k1, k2⟩ := marm_mir hord hd kvs s s' ys hc.2 hx
        refine ⟨k1.imp fun Dg hs m hm => ?_, by simp, fun _ m hm => ⟨_, (Option.some.inj hm).symm⟩⟩
        cases hm
        refine pairs_mir ((marm_keys_gv kvs _ _ _ hx).nodup hc.1) (.inl ⟨kvs, rfl, rfl⟩) ?_ hs ?_
        · have : (mapSrc kvs).map (·.1) = kvs.map (·.1) := by simp [mapSrc, List.map_map]
          rw [this]; exact hc.1
        · intro k info x hx
          obtain ⟨h1, rfl⟩ := mapSrc_mem.1 hx
          exact k2 k x h1
  | .struct fs, s, s', info, o, hf, hc, hm => by
    rw [GV.Clean] at hc
    simp only [GV.mar] at hm
    cases hx : GV.marf ord oe d fs s with
    | none => rw [hx] at hm; cases hm
    | some r =>
      obtain ⟨s1, ps, dep⟩ := r
      rw [hx] at hm
      simp only at hm
      have hdep := marf_dep_gv fs _ _ _ _ hx
      rw [depMap_clean hc.2] at hdep
      subst hdep
      rw [structDict_clean hord hf] at hm
      simp only at hm
      have hkeys : (ps.map (·.1)).Nodup := (marf_keys_gv fs _ _ _ _ hx).nodup hc.1
      obtain ⟨k1, k2⟩ := marf_mir hord hd fs s s1 ps [] hc.2 hx
      split at hm
      · rename_i hcond
        cases hm
        have hps : ps = [] := List.isEmpty_iff.1 hcond.1
        subst hps
        refine ⟨k1.imp (by simp), fun _ => ⟨hcond.2.2, .struct hcond.2.1 fun i x hix hi => ?_⟩, fun _ => by simp⟩
        rcases k2 i x hix hi with ⟨m, hm⟩ | h
        · cases hm
        · exact h.2
      · cases hm
        refine ⟨k1.imp fun Dg hs m hm => ?_, by simp, fun _ m hm => ⟨_, (Option.some.inj hm).symm⟩⟩
        cases hm
        refine pairs_mir hkeys (.inr ⟨fs, rfl, rfl⟩) ?_ hs ?_
        · have : (fieldSrc fs).map (·.1) = (fs.filter fun f => !f.1.ignore).map (·.1.name) := by simp [fieldSrc, List.map_map]
          rw [this]; exact hc.1
        · intro k info x hx
          obtain ⟨i, h1, h2, rfl, rfl⟩ := fieldSrc_mem.1 hx
          exact k2 i x h1 h2
  | .iface x, s, s', info, o, hf, hc, hm => by
    rw [GV.Clean] at hc
    simp only [GV.mar] at hm
    obtain ⟨h1, h2, h3⟩ := mar_mir hord hd x s s' info o hf hc hm
    exact ⟨h1.imp fun Dg hq m hm => mir_via (fun z => .iface) (hq m hm), fun hn => ⟨(h2 hn).1, .iface (h2 hn).2⟩, fun hn => (show False from hn).elim⟩
  | .ptr a, s, s', info, o, hf, hc, hm => by
    rw [GV.Clean] at hc
    simp only [GV.mar] at hm
    obtain ⟨k1, k2⟩ := ptr_mir hd hf hc hm
    exact ⟨k2, k1, fun hn => (show False from hn).elim⟩
  | .shared a, s, s', info, o, hf, hc, hm => by
    simp only [GV.mar] at hm
    obtain ⟨g, ha, ⟨h1, h2, _⟩, _⟩ := hd _ _ _ _ _ hf hm
    exact ⟨h1.imp fun Dg hq m hm => mir_via (fun z => .shared ha) (hq m hm), fun hn => ⟨(h2 hn).1, .shared ha (h2 hn).2⟩, fun hn => (show False from hn).elim⟩
theorem mars_mir (hord : ∀ dep, (ord dep).Perm dep) (hd : DerefMir h oe d) : ∀ (xs : List GV) (s s' : MSess) (ys : List MJ), GV.Cleans h xs →
      GV.mars ord oe d xs s = some (s', ys) → RunD s s' fun Dg => MJ.Mirs h oe Dg ys xs
  | [], s, s', ys, hc, hm => by
    simp only [GV.mars] at hm
    cases hm
    exact RunD.const rfl (Nat.le_refl _) fun Dg => by rw [MJ.Mirs]; simp
  | x :: xs, s, s', ys, hc, hm => by
    rw [GV.Cleans] at hc
    simp only [GV.mars] at hm
    cases hx : GV.mar ord oe d x s none with
    | none => rw [hx] at hm; cases hm
    | some r =>
      obtain ⟨s1, o⟩ := r
      rw [hx] at hm
      simp only at hm
      cases hxs : GV.mars ord oe d xs s1 with
      | none => rw [hxs] at hm; cases hm
      | some r2 =>
        obtain ⟨s2, zs⟩ := r2
        rw [hxs] at hm
        simp only at hm
        have h1 := mar_mir hord hd x s s1 none o rfl hc.1 hx
        have h2 := mars_mir hord hd xs s1 s2 zs hc.2 hxs
        cases o with
        | none => cases hm; exact (h1.run.trans h2).imp fun Dg hq => mirs_drop (h1.none rfl) hq.2
        | some m => cases hm; exact (h1.run.trans h2).imp fun Dg hq => mirs_keep (hq.1 m rfl) hq.2
theorem marm_mir (hord : ∀ dep, (ord dep).Perm dep) (hd : DerefMir h oe d) : ∀ (xs : List (Bytes × GV)) (s s' : MSess) (ys : List (Bytes × MJ)), GV.Cleanm h xs →
      GV.marm ord oe d xs s = some (s', ys) → (RunD s s' fun Dg => MJ.Mirf h oe Dg ys (mapSrc xs)) ∧
        ∀ k x, (k, x) ∈ xs → (∃ m, (k, m) ∈ ys) ∨ Dropped h oe x none
  | [], s, s', ys, hc, hm => by
    simp only [GV.marm] at hm
    cases hm
    exact ⟨RunD.const rfl (Nat.le_refl _) fun Dg => trivial, by simp⟩
  | (k, x) :: xs, s, s', ys, hc, hm => by
    rw [GV.Cleanm] at hc
    simp only [GV.marm] at hm
    cases hx : GV.mar ord oe d x s none with
    | none => rw [hx] at hm; cases hm
    | some r =>
      obtain ⟨s1, o⟩ := r
      rw [hx] at hm
      simp only at hm
      cases hxs : GV.marm ord oe d xs s1 with
      | none => rw [hxs] at hm; cases hm
      | some r2 =>
        obtain ⟨s2, zs⟩ := r2
        rw [hxs] at hm
        simp only at hm
        have h1 := mar_mir hord hd x s s1 none o rfl hc.1 hx
        obtain ⟨h2, h3⟩ := marm_mir hord hd xs s1 s2 zs hc.2 hxs
        have lift : ∀ {Dg : Nat → Nat}, MJ.Mirf h oe Dg zs (mapSrc xs) → MJ.Mirf h oe Dg zs (mapSrc ((k, x) :: xs)) := by
          intro Dg hq
          rw [mirf_all] at hq ⊢
          intro k' m' hm'
          obtain ⟨info, x', e1, e2⟩ := hq k' m' hm'
          exact ⟨info, x', List.mem_cons_of_mem _ e1, e2⟩
        cases o with
        | none =>
          cases hm
          refine ⟨(h1.run.trans h2).imp fun Dg hq => lift hq.2, fun k' x' hk => ?_⟩
          rcases List.mem_cons.1 hk with hk | hk
          · cases hk; exact .inr (h1.none rfl)
          · exact h3 k' x' hk
        | some m =>
          cases hm
          refine ⟨(h1.run.trans h2).imp fun Dg hq => ?_, fun k' x' hk => ?_⟩
          · rw [MJ.Mirf]
            exact ⟨⟨none, x, List.mem_cons_self .., hq.1 m rfl⟩, lift hq.2⟩
          · rcases List.mem_cons.1 hk with hk | hk
            · cases hk; exact .inl ⟨m, List.mem_cons_self ..⟩
            · rcases h3 k' x' hk with ⟨m', hm'⟩ | h
              · exact .inl ⟨m', List.mem_cons_of_mem _ hm'⟩
              · exact .inr h
theorem marf_mir (hord : ∀ dep, (ord dep).Perm dep) (hd : DerefMir h oe d) : ∀ (xs : List (FInfo × GV)) (s s' : MSess) (ys : List (Bytes × MJ)) (dep : SMap Bytes), GV.Cleanf h xs →
      GV.marf ord oe d xs s = some (s', ys, dep) → (RunD s s' fun Dg => MJ.Mirf h oe Dg ys (fieldSrc xs)) ∧ FieldsMissV h oe ys xs
  | [], s, s', ys, dep, hc, hm => by
    simp only [GV.marf] at hm
    cases hm
    exact ⟨RunD.const rfl (Nat.le_refl _) fun Dg => trivial, fun i x hx => by cases hx⟩
  | (i, x) :: xs, s, s', ys, dep, hc, hm => by
    rw [GV.Cleanf] at hc
    have lift : ∀ {Dg : Nat → Nat} {zs : List (Bytes × MJ)}, MJ.Mirf h oe Dg zs (fieldSrc xs) → MJ.Mirf h oe Dg zs (fieldSrc ((i, x) :: xs)) := by
      intro Dg zs hq
      rw [mirf_all] at hq ⊢
      intro k' m' hm'
      obtain ⟨info, x', e1, e2⟩ := hq k' m' hm'
      obtain ⟨i', e3, e4⟩ := fieldSrc_mem.1 e1
      exact ⟨info, x', fieldSrc_mem.2 ⟨i', List.mem_cons_of_mem _ e3, e4⟩, e2⟩
    simp only [GV.marf] at hm
    split at hm
    · rename_i hi
      obtain ⟨k1, k2⟩ := marf_mir hord hd xs s s' ys dep hc.2 hm
      refine ⟨k1.imp fun Dg hq => lift hq, fun i' x' hq hi' => ?_⟩
      rcases List.mem_cons.1 hq with hq | hq
      · cases hq; rw [hi] at hi'; cases hi'
      · exact k2 i' x' hq hi'
    · rename_i hi
      simp only [Bool.not_eq_true] at hi
      rcases hc.1 with hc1 | ⟨d2, d3, hcx⟩
      · rw [hi] at hc1; cases hc1
      rw [d3] at hm
      simp only at hm
      cases hx : GV.mar ord oe d x s (some i) with
      | none => rw [hx] at hm; cases hm
      | some r1 =>
        obtain ⟨s1, o⟩ := r1
        rw [hx] at hm
        simp only at hm
        cases hxs : GV.marf ord oe d xs s1 with
        | none => rw [hxs] at hm; cases hm
        | some r2 =>
          obtain ⟨s2, zs, dep2⟩ := r2
          rw [hxs] at hm
          simp only at hm
          have h1 := mar_mir hord hd x s s1 (some i) o d2 hcx hx
          obtain ⟨k1, k2⟩ := marf_mir hord hd xs s1 s2 zs dep2 hc.2 hxs
          cases o with
          | none =>
            cases hm
            refine ⟨(h1.run.trans k1).imp fun Dg hq => lift hq.2, fun i' x' hq hi' => ?_⟩
            rcases List.mem_cons.1 hq with hq | hq
            · cases hq; exact .inr (h1.none rfl)
            · exact k2 i' x' hq hi'
          | some m =>
            cases hm
            refine ⟨(h1.run.trans k1).imp fun Dg hq => ?_, fun i' x' hq hi' => ?_⟩
            · rw [MJ.Mirf]
              exact ⟨⟨some i, x, fieldSrc_mem.2 ⟨i, List.mem_cons_self .., hi, rfl, rfl⟩, hq.1 m rfl⟩, lift hq.2⟩
            · rcases List.mem_cons.1 hq with hq | hq
              · cases hq; exact .inl ⟨m, List.mem_cons_self ..⟩
              · rcases k2 i' x' hq hi' with ⟨m', h⟩ | h
                · exact .inl ⟨m', List.mem_cons_of_mem _ h⟩
                · exact .inr h
end

theorem gd_mir (hord : ∀ dep, (ord dep).Perm dep) (hh : ∀ x ∈ h, x.Clean h) : ∀ n, DerefMir h oe (gd ord oe h n) := by
  intro n
  induction n with
  | zero => intro s info a s' o _ hr; cases hr
  | succ n ih =>
    intro s info a s' o hf hr
    obtain ⟨g, hg⟩ := gd_dang _ _ _ _ _ hr
    rw [gd_succ hg] at hr
    have hc := hh g (List.mem_of_getElem? hg)
    refine ⟨g, hg, mar_mir hord ih g s s' info o hf hc hr, fun l hl => ?_⟩
    subst hl
    rw [GV.Clean] at hc
    simp only [GV.mar] at hr
    cases hr; exact ⟨hc, rfl, rfl⟩
end
end
end Jsonutils
