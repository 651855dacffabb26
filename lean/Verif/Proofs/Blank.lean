import Verif.Spec.Blank
import Verif.Proofs.WithinGraph
import Verif.Proofs.GraphMar
import Verif.Proofs.MarshalWf
import Verif.Proofs.MarshalStruct

/-! # Exactly the empty values are left out, in any memory -/

namespace Jsonutils

variable {ord : SMap Bytes → List (Bytes × Bytes)} {h : List GV}

/-- Empty, with a proof of height at most `N`. -/
def BlankAt (h : List GV) : Nat → GV → Option FInfo → Prop
  | 0, _, _ => False
  | _ + 1, .leaf l, info => l.Empty info
  | _ + 1, .seq xs, info => xs = [] ∧ Asks info (·.omitEmpty) = true
  | _ + 1, .map xs, info => xs = [] ∧ Asks info (·.omitEmpty) = true
  | n + 1, .struct fs, info => Asks info (·.omitEmpty) = true ∧ ∀ i x, (i, x) ∈ fs → i.Proper → BlankAt h n x (some i)
  | n + 1, .iface x, info => BlankAt h n x info
  | n + 1, .ptr a, info => ∃ x, h[a]? = some x ∧ BlankAt h n x info
  | n + 1, .shared a, info => ∃ x, h[a]? = some x ∧ BlankAt h n x info
  | _ + 1, .jsonPtr _, _ => False

theorem blankAt_succ : ∀ (N : Nat) (g : GV) (info : Option FInfo), BlankAt h N g info → BlankAt h (N + 1) g info := by
  intro N
  induction N with
  | zero => intro g info hb; exact hb.elim
  | succ N ih =>
    intro g info hb
    cases g with
    | leaf l => exact hb
    | jsonPtr j => exact hb
    | seq xs => exact hb
    | map xs => exact hb
    | struct fs => exact ⟨hb.1, fun i x hm hp => ih _ _ (hb.2 i x hm hp)⟩
    | iface x => exact ih _ _ hb
    | ptr a => obtain ⟨x, h1, h2⟩ := hb; exact ⟨x, h1, ih _ _ h2⟩
    | shared a => obtain ⟨x, h1, h2⟩ := hb; exact ⟨x, h1, ih _ _ h2⟩

theorem blankAt_mono {N M : Nat} (hNM : N ≤ M) {g : GV} {info : Option FInfo} (hb : BlankAt h N g info) : BlankAt h M g info := by
  induction hNM with
  | refl => exact hb
  | step _ ih => exact blankAt_succ _ _ _ ih

/-- The height does not depend on the options. -/
theorem blankAt_swap : ∀ (M N : Nat) (g : GV) (info info' : Option FInfo), BlankAt h N g info → BlankAt h M g info' → BlankAt h M g info := by
  intro M
  induction M with
  | zero => intro N g info info' _ hb; exact hb.elim
  | succ M ih =>
    intro N g info info' ha hb
    cases N with
    | zero => exact ha.elim
    | succ N =>
      cases g with
      | leaf l => exact ha
      | jsonPtr j => exact ha
      | seq xs => exact ha
      | map xs => exact ha
      | struct fs => exact ⟨ha.1, hb.2⟩
      | iface x => exact ih N x info info' ha hb
      | ptr a =>
        obtain ⟨x, h1, h2⟩ := ha
        obtain ⟨y, h3, h4⟩ := hb
        rw [h1] at h3; cases h3
        exact ⟨x, h1, ih N x info info' h2 h4⟩
      | shared a =>
        obtain ⟨x, h1, h2⟩ := ha
        obtain ⟨y, h3, h4⟩ := hb
        rw [h1] at h3; cases h3
        exact ⟨x, h1, ih N x info info' h2 h4⟩

theorem blank_of_at : ∀ (N : Nat) (g : GV) (info : Option FInfo), BlankAt h N g info → g.Blank h info := by
  intro N
  induction N with
  | zero => intro g info hb; exact hb.elim
  | succ N ih =>
    intro g info hb
    cases g with
    | leaf l => exact .leaf hb
    | jsonPtr j => exact hb.elim
    | seq xs => obtain ⟨rfl, h2⟩ := hb; exact .seq h2
    | map xs => obtain ⟨rfl, h2⟩ := hb; exact .map h2
    | struct fs => exact .struct hb.1 fun i x hm hp => ih _ _ (hb.2 i x hm hp)
    | iface x => exact .iface (ih _ _ hb)
    | ptr a => obtain ⟨x, h1, h2⟩ := hb; exact .ptr h1 (ih _ _ h2)
    | shared a => obtain ⟨x, h1, h2⟩ := hb; exact .shared h1 (ih _ _ h2)

theorem blankAt_list (fs : List (FInfo × GV)) (hf : ∀ i x, (i, x) ∈ fs → i.Proper → ∃ N, BlankAt h N x (some i)) :
    ∃ N, ∀ i x, (i, x) ∈ fs → i.Proper → BlankAt h N x (some i) := by
  induction fs with
  | nil => exact ⟨0, fun i x hm => by cases hm⟩
  | cons f fs ih =>
    obtain ⟨j, y⟩ := f
    obtain ⟨N, hN⟩ := ih fun i x hm hp => hf i x (List.mem_cons_of_mem _ hm) hp
    by_cases hp : j.Proper
    · obtain ⟨M, hM⟩ := hf j y (List.mem_cons_self ..) hp
      refine ⟨max N M, fun i x hm hp' => ?_⟩
      rcases List.mem_cons.1 hm with hm | hm
      · cases hm; exact blankAt_mono (Nat.le_max_right ..) hM
      · exact blankAt_mono (Nat.le_max_left ..) (hN i x hm hp')
    · refine ⟨N, fun i x hm hp' => ?_⟩
      rcases List.mem_cons.1 hm with hm | hm
      · cases hm; exact absurd hp' hp
      · exact hN i x hm hp'

theorem at_of_blank {g : GV} {info : Option FInfo} (hb : g.Blank h info) : ∃ N, BlankAt h N g info := by
  induction hb with
  | leaf hl => exact ⟨1, hl⟩
  | seq ha => exact ⟨1, rfl, ha⟩
  | map ha => exact ⟨1, rfl, ha⟩
  | struct ha _ ih =>
    obtain ⟨N, hN⟩ := blankAt_list _ ih
    exact ⟨N + 1, ha, hN⟩
  | iface _ ih => obtain ⟨N, hN⟩ := ih; exact ⟨N + 1, hN⟩
  | ptr h1 _ ih => obtain ⟨N, hN⟩ := ih; exact ⟨N + 1, _, h1, hN⟩
  | shared h1 _ ih => obtain ⟨N, hN⟩ := ih; exact ⟨N + 1, _, h1, hN⟩

/-- The least height with which a value is empty, for whatever options. -/
theorem blankAt_least {N : Nat} {g : GV} {info : Option FInfo} (hb : BlankAt h N g info) :
    ∃ M, M ≤ N ∧ BlankAt h M g info ∧ ∀ K, K < M → ∀ i, ¬ BlankAt h K g i := by
  induction N using Nat.strongRecOn generalizing info with
  | ind N ih =>
    by_cases hc : ∃ K, K < N ∧ ∃ i, BlankAt h K g i
    · obtain ⟨K, h1, i, h2⟩ := hc
      obtain ⟨M, a, _, c⟩ := ih K h1 (blankAt_swap K N g info i hb h2)
      refine ⟨M, by omega, ?_, c⟩
      assumption
    · exact ⟨N, Nat.le_refl _, hb, fun K hK i hi => hc ⟨K, hK, i, hi⟩⟩

theorem traceFind_id (a : Nat) : ∀ (tr : List TEntry), (traceFind a none tr).1 = none → (traceFind a none tr).2 = tr
  | [], _ => rfl
  | e :: tr, hn => by
    simp only [traceFind] at hn ⊢
    by_cases he : e.inf = a
    · exfalso
      rw [if_pos he] at hn
      have some' : ∀ (tr : List TEntry) (i : Nat), (traceFind a (some i) tr).1 ≠ none := by
        intro tr
        induction tr with
        | nil => intro i; simp [traceFind]
        | cons e tr ih => intro i; simp only [traceFind]; split <;> exact ih _
      exact some' _ _ hn
    · rw [if_neg he] at hn ⊢
      rw [traceFind_id a tr hn]
      simp

theorem structDict_none {oe : Bool} {info : Option FInfo} {ps : List (Bytes × MJ)} {dep : SMap Bytes} {o : Option MJ} (hs : structDict ord oe info ps dep = some o) :
    o = none ↔ oe = true ∧ ps = [] ∧ Asks info (·.omitEmpty) = true := by
  unfold structDict at hs
  split at hs
  · cases hs
  · rename_i dps hd
    have he : (ps ++ dps).isEmpty = ps.isEmpty := by
      cases ps with
      | nil => rw [depPairs_nil hd]; rfl
      | cons p ps => rfl
    have ha : optEmpty info = Asks info (·.omitEmpty) := by cases info <;> rfl
    simp only [he, ha] at hs
    split at hs
    · rename_i hc
      cases hs
      simp only [true_iff]
      exact ⟨hc.2.2, by simpa using hc.1, hc.2.1⟩
    · rename_i hc
      cases hs
      simp only [reduceCtorEq, false_iff]
      rintro ⟨a, b, c⟩
      exact hc ⟨by simp [b], c, a⟩

/-- A struct all whose fields leave nothing. -/
theorem marf_blank {d : MSess → Option FInfo → Nat → Option (MSess × Option MJ)} {T : List TEntry} : ∀ (fs : List (FInfo × GV)),
    (∀ i x, (i, x) ∈ fs → i.Proper → ∀ s s' o, s.trace = T → GV.mar ord true d x s (some i) = some (s', o) → s'.trace = T ∧ o = none) →
    ∀ s s' ps dep, s.trace = T → GV.marf ord true d fs s = some (s', ps, dep) → s'.trace = T ∧ ps = []
  | [], _, s, s', ps, dep, ht, hr => by simp only [GV.marf] at hr; cases hr; exact ⟨ht, rfl⟩
  | (i, x) :: fs, hf, s, s', ps, dep, ht, hr => by
    have ih := marf_blank fs fun i x hm => hf i x (List.mem_cons_of_mem _ hm)
    simp only [GV.marf] at hr
    by_cases hi : i.ignore = true
    · rw [if_pos hi] at hr
      exact ih _ _ _ _ ht hr
    · rw [if_neg hi] at hr
      cases hk : i.deprecatedBy with
      | some k =>
        rw [hk] at hr
        simp only at hr
        split at hr
        · cases hr
        · rename_i _ ps' d1 h1
          cases hr
          exact ih _ _ _ _ ht h1
      | none =>
        rw [hk] at hr
        simp only at hr
        split at hr
        · cases hr
        · rename_i s1 o hx
          obtain ⟨t1, rfl⟩ := hf i x (List.mem_cons_self ..) ⟨by simpa using hi, hk⟩ s s1 o ht hx
          split at hr
          · cases hr
          · rename_i _ ps' d1 h1
            cases hr
            exact ih _ _ _ _ t1 h1

theorem gv_blank_ptr {a : Nat} {x : GV} {info : Option FInfo} (hx : h[a]? = some x) : (GV.ptr a).Blank h info ↔ x.Blank h info :=
  ⟨fun hb => by cases hb with | ptr h1 h2 => rw [hx] at h1; cases h1; exact h2, .ptr hx⟩

/-- A value that is empty for some options leaves nothing in the trace. -/
theorem blank_run : ∀ (N n : Nat) (g : GV) (s : MSess) (info info' : Option FInfo) (s' : MSess) (o : Option MJ), BlankAt h N g info' →
    (∀ e ∈ s.trace, ∀ M, M < N → ∀ x i, h[e.inf]? = some x → ¬ BlankAt h M x i) →
    GV.mar ord true (gd ord true h n) g s info = some (s', o) → s'.trace = s.trace ∧ (o = none ↔ g.Blank h info) := by
  intro N
  induction N using Nat.strongRecOn with
  | ind N ih =>
  intro n g s info info' s' o hb hT hr
  cases N with
  | zero => exact hb.elim
  | succ N =>
    have hT' : ∀ e ∈ s.trace, ∀ M, M < N → ∀ x i, h[e.inf]? = some x → ¬ BlankAt h M x i := fun e he M hM => hT e he M (by omega)
    cases g with
    | leaf l =>
      simp only [GV.mar] at hr
      cases hr
      refine ⟨rfl, ?_⟩
      rw [Option.map_eq_none_iff, leaf_none_iff]
      exact ⟨fun hl => .leaf hl.2, fun hl => ⟨rfl, by cases hl; assumption⟩⟩
    | jsonPtr j => exact hb.elim
    | seq xs =>
      obtain ⟨rfl, _⟩ := hb
      have ha : optEmpty info = Asks info (·.omitEmpty) := by cases info <;> rfl
      simp only [GV.mar, GV.mars, ha] at hr
      split at hr
      · rename_i hc
        cases hr
        exact ⟨rfl, by simp only [true_iff]; exact .seq hc.2.1⟩
      · rename_i hc
        cases hr
        refine ⟨rfl, ?_⟩
        simp only [reduceCtorEq, false_iff]
        intro hx; cases hx with | seq hx => exact hc ⟨rfl, hx, trivial⟩
    | map xs =>
      obtain ⟨rfl, _⟩ := hb
      have ha : optEmpty info = Asks info (·.omitEmpty) := by cases info <;> rfl
      simp only [GV.mar, GV.marm, ha] at hr
      split at hr
      · rename_i hc
        cases hr
        exact ⟨rfl, by simp only [true_iff]; exact .map hc.2.1⟩
      · rename_i hc
        cases hr
        refine ⟨rfl, ?_⟩
        simp only [reduceCtorEq, false_iff]
        intro hx; cases hx with | map hx => exact hc ⟨rfl, hx, trivial⟩
    | struct fs =>
      simp only [GV.mar] at hr
      split at hr
      · cases hr
      · rename_i s1 ps dep hf
        split at hr
        · cases hr
        · rename_i o' hs
          cases hr
          obtain ⟨t1, rfl⟩ := marf_blank (T := s.trace) fs (fun i x hm hp s2 s3 o2 ht hx => by
            have := ih N (by omega) n x s2 (some i) (some i) s3 o2 (hb.2 i x hm hp) (by rw [ht]; exact hT') hx
            exact ⟨this.1.trans ht, this.2.2 (blank_of_at N x _ (hb.2 i x hm hp))⟩) s _ _ _ rfl hf
          refine ⟨t1, (structDict_none hs).trans ⟨fun q => .struct q.2.2 fun i x hm hp => blank_of_at N x _ (hb.2 i x hm hp), fun q => ?_⟩⟩
          cases q with | struct q _ => exact ⟨rfl, rfl, q⟩
    | iface x =>
      simp only [GV.mar] at hr
      have := ih N (by omega) n x s info info' s' o hb hT' hr
      exact ⟨this.1, this.2.trans ⟨.iface, fun q => by cases q; assumption⟩⟩
    | shared a =>
      obtain ⟨x, h1, h2⟩ := hb
      simp only [GV.mar] at hr
      cases n with
      | zero => simp only [gd] at hr; cases hr
      | succ n =>
        rw [gd_succ h1] at hr
        have := ih N (by omega) n x s info info' s' o h2 hT' hr
        exact ⟨this.1, this.2.trans ⟨.shared h1, fun q => by cases q with | shared e q => rw [h1] at e; cases e; exact q⟩⟩
    | ptr a =>
      obtain ⟨x, h1, h2⟩ := hb
      simp only [GV.mar, marshalPtr] at hr
      obtain ⟨M, m1, m2, m3⟩ := blankAt_least h2
      split at hr
      · rename_i id t hfd
        exfalso
        have := traceFind_is a none s.trace id (by rw [hfd])
        rcases this with e | ⟨e, e1, _, e3⟩
        · cases e
        · exact hT e e1 M (by omega) x info' (by rw [e3]; exact h1) m2
      · rename_i t hfd
        have ht : t = s.trace := by
          have := traceFind_id a s.trace (by rw [hfd])
          rw [hfd] at this; exact this
        subst ht
        cases n with
        | zero => simp only [gd] at hr; cases hr
        | succ n =>
          rw [gd_succ h1] at hr
          split at hr
          · cases hr
          · rename_i s1 o1 hx
            cases hr
            have := ih M (by omega) n x _ info info' s1 o1 m2 (fun e he K hK y i hy => by
              rcases List.mem_append.1 he with he | he
              · exact hT e he K (by omega) y i hy
              · simp only [List.mem_singleton] at he
                subst he
                rw [h1] at hy; cases hy
                exact m3 K hK i) hx
            refine ⟨?_, ?_⟩
            · show tracePop s1.trace = _
              rw [this.1, tracePop_push]
            · rw [Option.map_eq_none_iff, this.2, gv_blank_ptr h1]

/-- Nothing that is being marshalled is empty, for whatever options. -/
def Solid (h : List GV) (s : MSess) : Prop := ∀ e ∈ s.trace, ∀ x i, h[e.inf]? = some x → ¬ x.Blank h i

/-- What one call does. -/
def Exact (h : List GV) (g : GV) (info : Option FInfo) (r : MSess × Option MJ) : Prop := Solid h r.1 ∧ (r.2 = none ↔ g.Blank h info)

/-- The members that are written. -/
def Writes (h : List GV) (fs : List (FInfo × GV)) (ps : List (Bytes × MJ)) : Prop :=
  (∀ k y, (k, y) ∈ ps → ∃ i x, (i, x) ∈ fs ∧ i.Proper ∧ i.name = k ∧ ¬ x.Blank h (some i)) ∧
  ∀ i x, (i, x) ∈ fs → i.Proper → ¬ x.Blank h (some i) → ∃ y, (i.name, y) ∈ ps

/-- The entries that are written. -/
def WritesM (h : List GV) (kvs : List (Bytes × GV)) (ps : List (Bytes × MJ)) : Prop :=
  (∀ k y, (k, y) ∈ ps → ∃ x, (k, x) ∈ kvs ∧ ¬ x.Blank h none) ∧ ∀ k x, (k, x) ∈ kvs → ¬ x.Blank h none → ∃ y, (k, y) ∈ ps

theorem not_none_iff {α : Type} {o : Option α} {B : Prop} (hb : o = none ↔ B) : (∃ v, o = some v) ↔ ¬ B := by
  cases o with
  | none => simp only [true_iff] at hb; simp [hb]
  | some v => simp only [reduceCtorEq, false_iff] at hb; simp [hb]

section
variable {n : Nat}

mutual
theorem mar_exact (hd : ∀ s info a r x, Solid h s → h[a]? = some x → gd ord true h n s info a = some r → Exact h x info r) :
    ∀ (g : GV) (s : MSess) (info : Option FInfo) (r : MSess × Option MJ), Solid h s → GV.mar ord true (gd ord true h n) g s info = some r → Exact h g info r
  | .leaf l, s, info, r, hs, hr => by
    simp only [GV.mar] at hr
    cases hr
    refine ⟨hs, ?_⟩
    simp only
    rw [Option.map_eq_none_iff, leaf_none_iff]
    exact ⟨fun hl => .leaf hl.2, fun hl => ⟨rfl, by cases hl; assumption⟩⟩
  | .jsonPtr j, s, info, r, hs, hr => by
    simp only [GV.mar] at hr
    cases hr
    exact ⟨hs, by simp only [reduceCtorEq, false_iff]; intro q; cases q⟩
  | .seq xs, s, info, r, hs, hr => by
    have ha : optEmpty info = Asks info (·.omitEmpty) := by cases info <;> rfl
    simp only [GV.mar, ha] at hr
    split at hr
    · rename_i hc
      cases hr
      have hx : xs = [] := by simpa using hc.1
      subst hx
      exact ⟨hs, by simp only [true_iff]; exact .seq hc.2.1⟩
    · rename_i hc
      split at hr
      · cases hr
      · rename_i s1 ys hx
        cases hr
        refine ⟨(mars_exact hd xs s _ _ hs hx).1, ?_⟩
        simp only [reduceCtorEq, false_iff]
        intro q; cases q with | seq q => exact hc ⟨rfl, q, trivial⟩
  | .map xs, s, info, r, hs, hr => by
    have ha : optEmpty info = Asks info (·.omitEmpty) := by cases info <;> rfl
    simp only [GV.mar, ha] at hr
    split at hr
    · rename_i hc
      cases hr
      have hx : xs = [] := by simpa using hc.1
      subst hx
      exact ⟨hs, by simp only [true_iff]; exact .map hc.2.1⟩
    · rename_i hc
      split at hr
      · cases hr
      · rename_i s1 ys hx
        cases hr
        refine ⟨(marm_exact hd xs s _ _ hs hx).1, ?_⟩
        simp only [reduceCtorEq, false_iff]
        intro q; cases q with | map q => exact hc ⟨rfl, q, trivial⟩
  | .struct fs, s, info, r, hs, hr => by
    simp only [GV.mar] at hr
    split at hr
    · cases hr
    · rename_i s1 ps dep hf
      split at hr
      · cases hr
      · rename_i o hst
        cases hr
        obtain ⟨a, b, c⟩ := marf_exact hd fs s _ _ _ hs hf
        refine ⟨a, (structDict_none hst).trans ⟨?_, fun q => ?_⟩⟩
        · rintro ⟨_, rfl, q⟩
          refine .struct q fun i x hm hp => ?_
          by_cases hx : x.Blank h (some i)
          · exact hx
          · obtain ⟨y, hy⟩ := c i x hm hp hx
            cases hy
        · cases q with
          | struct q1 q2 =>
            refine ⟨rfl, ?_, q1⟩
            cases ps with
            | nil => rfl
            | cons p ps =>
              obtain ⟨i, x, e1, e2, _, e4⟩ := b p.1 p.2 (List.mem_cons_self ..)
              exact absurd (q2 i x e1 e2) e4
  | .iface x, s, info, r, hs, hr => by
    simp only [GV.mar] at hr
    have := mar_exact hd x s info r hs hr
    exact ⟨this.1, this.2.trans ⟨.iface, fun q => by cases q; assumption⟩⟩
  | .shared a, s, info, r, hs, hr => by
    simp only [GV.mar] at hr
    cases hx : h[a]? with
    | none => cases n <;> simp only [gd, hx] at hr <;> cases hr
    | some x =>
      have := hd s info a r x hs hx hr
      exact ⟨this.1, this.2.trans ⟨.shared hx, fun q => by cases q with | shared e q => rw [hx] at e; cases e; exact q⟩⟩
  | .ptr a, s, info, r, hs, hr => by
    simp only [GV.mar, marshalPtr] at hr
    split at hr
    · rename_i id t hfd
      cases hr
      obtain ⟨e, e1, _, e3⟩ : ∃ e ∈ s.trace, e.id = id ∧ e.inf = a := by
        rcases traceFind_is a none s.trace id (by rw [hfd]) with e | e
        · cases e
        · exact e
      refine ⟨?_, ?_⟩
      · intro e' he' x i hx
        have := traceFind_ents a none s.trace e' (by rw [hfd]; exact he')
        obtain ⟨e2, m, _, q⟩ := this
        exact hs e2 m x i (by rw [← q]; exact hx)
      · simp only [reduceCtorEq, false_iff]
        intro q
        cases q with | ptr q1 q2 => exact hs e e1 _ _ (by rw [e3]; exact q1) q2
    · rename_i t hfd
      have ht : t = s.trace := by
        have := traceFind_id a s.trace (by rw [hfd])
        rw [hfd] at this; exact this
      subst ht
      split at hr
      · cases hr
      · rename_i s1 o1 hb
        cases hr
        cases hx : h[a]? with
        | none => cases n <;> simp only [gd, hx] at hb <;> cases hb
        | some x =>
          by_cases hbl : ∃ i, x.Blank h i
          · obtain ⟨i, hbl⟩ := hbl
            obtain ⟨N, hN⟩ := at_of_blank hbl
            obtain ⟨M, _, m2, m3⟩ := blankAt_least hN
            cases n with
            | zero => simp only [gd] at hb; cases hb
            | succ n =>
              rw [gd_succ hx] at hb
              have := blank_run M n x _ info i s1 o1 m2 (fun e he K hK y i hy q => by
                rcases List.mem_append.1 he with he | he
                · exact hs e he y i hy (blank_of_at K y i q)
                · simp only [List.mem_singleton] at he
                  subst he
                  rw [hx] at hy; cases hy
                  exact m3 K hK i q) hb
              refine ⟨?_, ?_⟩
              · show Solid h { s1 with trace := tracePop s1.trace }
                intro e he
                simp only [this.1, tracePop_push] at he
                exact hs e he
              · show o1.map (MJ.mark _) = none ↔ _
                rw [Option.map_eq_none_iff, this.2, gv_blank_ptr hx]
          · have hs' : Solid h ⟨s.nodeIndex + 1, s.trace ++ [⟨s.nodeIndex + 1, a, 1⟩]⟩ := by
              intro e he y i hy q
              rcases List.mem_append.1 he with he | he
              · exact hs e he y i hy q
              · simp only [List.mem_singleton] at he
                subst he
                rw [hx] at hy; cases hy
                exact hbl ⟨i, q⟩
            have := hd _ info a _ x hs' hx hb
            refine ⟨fun e he => this.1 e (tracePop_subset _ e he), ?_⟩
            show o1.map (MJ.mark _) = none ↔ _
            rw [Option.map_eq_none_iff, gv_blank_ptr hx]
            exact this.2
theorem mars_exact (hd : ∀ s info a r x, Solid h s → h[a]? = some x → gd ord true h n s info a = some r → Exact h x info r) :
    ∀ (xs : List GV) (s s' : MSess) (ys : List MJ), Solid h s → GV.mars ord true (gd ord true h n) xs s = some (s', ys) →
      Solid h s' ∧ ∃ zs, GV.Kept h xs zs ∧ zs.length = ys.length
  | [], s, s', ys, hs, hr => by simp only [GV.mars] at hr; cases hr; exact ⟨hs, [], .nil, rfl⟩
  | x :: xs, s, s', ys, hs, hr => by
    simp only [GV.mars] at hr
    split at hr
    · cases hr
    · rename_i s1 o hx
      have h1 := mar_exact hd x s none _ hs hx
      clear hx
      split at hr
      · cases hr
      · rename_i s2 ys' hxs
        obtain ⟨a, zs, b, c⟩ := mars_exact hd xs s1 _ _ h1.1 hxs
        cases hr
        refine ⟨a, ?_⟩
        cases o with
        | none => exact ⟨zs, .drop (h1.2.1 rfl) b, c⟩
        | some y => exact ⟨x :: zs, .keep ((not_none_iff h1.2).1 ⟨y, rfl⟩) b, by simp [c]⟩
theorem marm_exact (hd : ∀ s info a r x, Solid h s → h[a]? = some x → gd ord true h n s info a = some r → Exact h x info r) :
    ∀ (xs : List (Bytes × GV)) (s s' : MSess) (ps : List (Bytes × MJ)), Solid h s → GV.marm ord true (gd ord true h n) xs s = some (s', ps) →
      Solid h s' ∧ WritesM h xs ps
  | [], s, s', ps, hs, hr => by
    simp only [GV.marm] at hr; cases hr
    exact ⟨hs, ⟨fun k y q => by simp at q, fun k x q => by simp at q⟩⟩
  | (k, x) :: xs, s, s', ps, hs, hr => by
    simp only [GV.marm] at hr
    split at hr
    · cases hr
    · rename_i s1 o hx
      have h1 := mar_exact hd x s none _ hs hx
      clear hx
      split at hr
      · cases hr
      · rename_i s2 ys' hxs
        obtain ⟨a, b, c⟩ := marm_exact hd xs s1 _ _ h1.1 hxs
        cases hr
        refine ⟨a, ?_, ?_⟩
        · intro k' y q
          have old : (k', y) ∈ ys' → ∃ z, (k', z) ∈ (k, x) :: xs ∧ ¬ z.Blank h none := fun q => by
            obtain ⟨z, e1, e2⟩ := b k' y q; exact ⟨z, List.mem_cons_of_mem _ e1, e2⟩
          cases o with
          | none => exact old q
          | some w =>
            rcases List.mem_cons.1 q with q | q
            · cases q; exact ⟨x, List.mem_cons_self .., (not_none_iff h1.2).1 ⟨_, rfl⟩⟩
            · exact old q
        · intro k' z q hz
          rcases List.mem_cons.1 q with q | q
          · cases q
            obtain ⟨w, rfl⟩ := (not_none_iff h1.2).2 hz
            exact ⟨w, List.mem_cons_self ..⟩
          · obtain ⟨w, e⟩ := c k' z q hz
            cases o with
            | none => exact ⟨w, e⟩
            | some v => exact ⟨w, List.mem_cons_of_mem _ e⟩
theorem marf_exact (hd : ∀ s info a r x, Solid h s → h[a]? = some x → gd ord true h n s info a = some r → Exact h x info r) :
    ∀ (xs : List (FInfo × GV)) (s s' : MSess) (ps : List (Bytes × MJ)) (dep : SMap Bytes), Solid h s →
      GV.marf ord true (gd ord true h n) xs s = some (s', ps, dep) → Solid h s' ∧ Writes h xs ps
  | [], s, s', ps, dep, hs, hr => by
    simp only [GV.marf] at hr; cases hr
    exact ⟨hs, ⟨fun k y q => by simp at q, fun i x q => by simp at q⟩⟩
  | (i, x) :: xs, s, s', ps, dep, hs, hr => by
    simp only [GV.marf] at hr
    have skip : ∀ {ps : List (Bytes × MJ)}, ¬ i.Proper → Writes h xs ps → Writes h ((i, x) :: xs) ps := fun hp hw =>
      ⟨fun k y q => by obtain ⟨i', x', e, r⟩ := hw.1 k y q; exact ⟨i', x', List.mem_cons_of_mem _ e, r⟩, fun i' x' q hp' hx => by
        rcases List.mem_cons.1 q with q | q
        · cases q; exact absurd hp' hp
        · exact hw.2 i' x' q hp' hx⟩
    by_cases hi : i.ignore = true
    · rw [if_pos hi] at hr
      obtain ⟨a, b⟩ := marf_exact hd xs _ _ _ _ hs hr
      exact ⟨a, skip (fun q => by rw [q.1] at hi; cases hi) b⟩
    · rw [if_neg hi] at hr
      cases hk : i.deprecatedBy with
      | some k =>
        rw [hk] at hr
        simp only at hr
        split at hr
        · cases hr
        · rename_i s2 ps' d1 h1
          cases hr
          obtain ⟨a, b⟩ := marf_exact hd xs _ _ _ _ hs h1
          exact ⟨a, skip (fun q => by rw [q.2] at hk; cases hk) b⟩
      | none =>
        have hp : i.Proper := ⟨by simpa using hi, hk⟩
        rw [hk] at hr
        simp only at hr
        split at hr
        · cases hr
        · rename_i s1 o hx
          have h1 := mar_exact hd x s (some i) _ hs hx
          clear hx
          split at hr
          · cases hr
          · rename_i s2 ys' d1 hxs
            obtain ⟨a, b, c⟩ := marf_exact hd xs s1 _ _ _ h1.1 hxs
            cases hr
            refine ⟨a, ?_, ?_⟩
            · intro k' y q
              have old : (k', y) ∈ ys' → ∃ i' z, (i', z) ∈ (i, x) :: xs ∧ i'.Proper ∧ i'.name = k' ∧ ¬ z.Blank h (some i') := fun q => by
                obtain ⟨i', z, e1, e2⟩ := b k' y q; exact ⟨i', z, List.mem_cons_of_mem _ e1, e2⟩
              cases o with
              | none => exact old q
              | some w =>
                rcases List.mem_cons.1 q with q | q
                · cases q; exact ⟨i, x, List.mem_cons_self .., hp, rfl, (not_none_iff h1.2).1 ⟨_, rfl⟩⟩
                · exact old q
            · intro i' z q hp' hz
              rcases List.mem_cons.1 q with q | q
              · cases q
                obtain ⟨w, rfl⟩ := (not_none_iff h1.2).2 hz
                exact ⟨w, List.mem_cons_self ..⟩
              · obtain ⟨w, e⟩ := c i' z q hp' hz
                cases o with
                | none => exact ⟨w, e⟩
                | some v => exact ⟨w, List.mem_cons_of_mem _ e⟩
end
end

theorem gd_exact : ∀ (n : Nat) (s : MSess) (info : Option FInfo) (a : Nat) (r : MSess × Option MJ) (x : GV), Solid h s → h[a]? = some x →
    gd ord true h n s info a = some r → Exact h x info r
  | 0, s, info, a, r, x, hs, hx, hr => by simp only [gd] at hr; cases hr
  | n + 1, s, info, a, r, x, hs, hx, hr => by
    rw [gd_succ hx] at hr
    exact mar_exact (fun s info a r x => gd_exact n s info a r x) x s info r hs hr

theorem solid_init : Solid h .init := fun e he => by simp [MSess.init] at he

/-- Without cycles, it is the same as `GV.IsEmpty`. -/
theorem blank_iff_empty {g : GV} {t : TV} (hu : Unf h g t) : ∀ info : Option FInfo, g.Blank h info ↔ t.Empty info := by
  refine Unf.rec (h := h) (motive_1 := fun g t _ => ∀ info : Option FInfo, g.Blank h info ↔ t.Empty info)
    (motive_2 := fun xs ts _ => xs = [] ↔ ts = []) (motive_3 := fun xs ts _ => xs = [] ↔ ts = [])
    (motive_4 := fun fs ts _ => (∀ i x, (i, x) ∈ fs → i.Proper → x.Blank h (some i)) ↔ TV.Emptyf ts) ?_ ?_ ?_ ?_ ?_ ?_ ?_ ?_ ?_ ?_ ?_ ?_ ?_ ?_ hu
  · intro l info
    exact ⟨fun q => by cases q; assumption, .leaf⟩
  · intro j info
    show _ ↔ False
    exact ⟨fun q => (by cases q), False.elim⟩
  · intro xs ts _ ih info
    simp only [TV.Empty, ← ih]
    exact ⟨fun q => by cases q; exact ⟨rfl, by assumption⟩, fun ⟨a, b⟩ => by subst a; exact .seq b⟩
  · intro xs ts _ ih info
    simp only [TV.Empty, ← ih]
    exact ⟨fun q => by cases q; exact ⟨rfl, by assumption⟩, fun ⟨a, b⟩ => by subst a; exact .map b⟩
  · intro xs ts _ ih info
    simp only [TV.Empty, ← ih]
    exact ⟨fun q => by cases q with | struct a b => exact ⟨b, a⟩, fun ⟨a, b⟩ => .struct b a⟩
  · intro x t _ ih info
    simp only [TV.Empty, ← ih]
    exact ⟨fun q => by cases q; assumption, .iface⟩
  · intro a g t hg _ ih info
    simp only [TV.Empty, ← ih]
    exact gv_blank_ptr hg
  · intro a g t hg _ ih info
    simp only [← ih]
    exact ⟨fun q => by cases q with | shared e q => rw [hg] at e; cases e; exact q, .shared hg⟩
  · simp
  · intros; simp
  · simp
  · intros; simp
  · simp [TV.Emptyf]
  · intro i x xs t ts _ _ ih1 ih2
    simp only [TV.Emptyf, ← ih2, ← ih1]
    refine ⟨fun q => ⟨?_, fun i' x' hm => q i' x' (List.mem_cons_of_mem _ hm)⟩, ?_⟩
    · cases hi : i.ignore with
      | true => exact .inl rfl
      | false =>
        cases hk : i.deprecatedBy with
        | some k => exact .inr (.inl (by simp))
        | none => exact .inr (.inr (q i x (List.mem_cons_self ..) ⟨hi, hk⟩))
    · rintro ⟨a, b⟩ i' x' hm hp
      rcases List.mem_cons.1 hm with hm | hm
      · cases hm
        rcases a with a | a | a
        · rw [hp.1] at a; cases a
        · exact absurd hp.2 a
        · exact a
      · exact b i' x' hm hp

/-- The members of the dictionary made of a struct. -/
theorem marshal_omits (hord : ∀ dep, (ord dep).Perm dep) {pick : List Nat → Nat} {fs : List (FInfo × GV)} (hd : DistinctNames fs) {n : Nat} {j : J}
    (hm : marshal ord pick true h n (.struct fs) = some j) :
    ∃ id m, j = .dict id m ∧ ∀ i x, (i, x) ∈ fs → i.Proper → (smGet m i.name = none ↔ x.Blank h (some i)) := by
  unfold marshal at hm
  rw [gmar_gd] at hm
  simp only [GV.mar] at hm
  cases hr : GV.marf ord true (gd ord true h n) fs .init with
  | none => rw [hr] at hm; cases hm
  | some r =>
    obtain ⟨s', ps, dep⟩ := r
    rw [hr] at hm
    simp only [structDict] at hm
    cases hdp : depPairs dep (dep.length + 1) ps (ord dep) with
    | none => rw [hdp] at hm; cases hm
    | some dps =>
      rw [hdp] at hm
      simp only [optEmpty, Bool.false_eq_true, false_and, and_false, if_false, forceStr, optForce] at hm
      cases hm
      simp only [MJ.finish]
      refine ⟨_, _, rfl, fun i x hmem hp => ?_⟩
      rw [finishf_map, smGet_mapv, Option.map_eq_none_iff]
      obtain ⟨_, w1, w2⟩ := marf_exact (fun s info a r x => gd_exact n s info a r x) fs .init _ _ _ solid_init hr
      obtain ⟨n1, n2⟩ := struct_nodup hord hd hr hdp
      have hdep := marf_dep_gv fs _ s' ps dep hr
      constructor
      · intro hnone
        by_cases hx : x.Blank h (some i)
        · exact hx
        · obtain ⟨y, hy⟩ := w2 i x hmem hp hx
          exact absurd hnone (pairsDict_ne _ i.name y (List.mem_append_left _ hy))
      · intro hb
        cases hv : smGet (pairsDict (ps ++ dps)) i.name with
        | none => rfl
        | some v =>
          exfalso
          rcases List.mem_append.1 ((pairsDict_get _ n2 _ _).1 hv) with q | q
          · obtain ⟨i', x', e1, e2, e3, e4⟩ := w1 _ _ q
            have := distinct_name hd e1 hmem e2.1 hp.1 e3
            cases this
            exact e4 hb
          · obtain ⟨t, e, a1, _, _⟩ := (depPairs_mem hdp i.name v).1 q
            have hmem' := (hord dep).subset a1
            subst hdep
            obtain ⟨i', x', m2, p2, q2, d2⟩ := depMap_mem fs _ _ (smGet_of_mem (depMap_sorted fs) hmem')
            have := distinct_name hd m2 hmem p2 hp.1 q2
            cases this
            rw [hp.2] at d2; cases d2

/-- The entries of the dictionary made of a map. -/
theorem marshal_omits_map {pick : List Nat → Nat} {kvs : List (Bytes × GV)} {n : Nat} {j : J} (hm : marshal ord pick true h n (.map kvs) = some j) :
    ∃ id m, j = .dict id m ∧ ∀ k, smGet m k = none ↔ ∀ x, (k, x) ∈ kvs → x.Blank h none := by
  unfold marshal at hm
  rw [gmar_gd] at hm
  simp only [GV.mar] at hm
  rw [if_neg (by simp [optEmpty])] at hm
  cases hr : GV.marm ord true (gd ord true h n) kvs .init with
  | none => rw [hr] at hm; cases hm
  | some r =>
    obtain ⟨s', ps⟩ := r
    rw [hr] at hm
    simp only [forceStr, optForce, Bool.false_eq_true, if_false] at hm
    cases hm
    simp only [MJ.finish]
    refine ⟨_, _, rfl, fun k => ?_⟩
    rw [finishf_map, smGet_mapv, Option.map_eq_none_iff]
    obtain ⟨_, w1, w2⟩ := marm_exact (fun s info a r x => gd_exact n s info a r x) kvs .init _ _ solid_init hr
    constructor
    · intro hnone x hx
      by_cases hb : x.Blank h none
      · exact hb
      · obtain ⟨y, hy⟩ := w2 k x hx hb
        exact absurd hnone (pairsDict_ne _ k y hy)
    · intro hb
      cases hv : smGet (pairsDict ps) k with
      | none => rfl
      | some v =>
        exfalso
        obtain ⟨x, e1, e2⟩ := w1 _ _ (pairsDict_mem (smGet_mem hv))
        exact e2 (hb x e1)

/-- The elements of the array made of a slice. -/
theorem marshal_omits_seq {pick : List Nat → Nat} {xs : List GV} {n : Nat} {j : J} (hm : marshal ord pick true h n (.seq xs) = some j) :
    ∃ ys zs, j = .arr ys ∧ GV.Kept h xs zs ∧ ys.length = zs.length := by
  unfold marshal at hm
  rw [gmar_gd] at hm
  simp only [GV.mar] at hm
  rw [if_neg (by simp [optEmpty])] at hm
  cases hr : GV.mars ord true (gd ord true h n) xs .init with
  | none => rw [hr] at hm; cases hm
  | some r =>
    obtain ⟨s', ys⟩ := r
    rw [hr] at hm
    simp only [forceStr, optForce, Bool.false_eq_true, if_false] at hm
    cases hm
    obtain ⟨_, zs, h1, h2⟩ := mars_exact (fun s info a r x => gd_exact n s info a r x) xs .init _ _ solid_init hr
    refine ⟨_, zs, by simp only [MJ.finish]; rfl, h1, ?_⟩
    rw [h2]
    generalize s'.live = l
    clear hr h2 h1
    induction ys with
    | nil => rfl
    | cons y ys ih => simp only [MJ.finishs, List.length_cons, ih]

/-- The deprecated members of the dictionary made of a struct, and where its keys come from. -/
theorem marshal_aliases (hord : ∀ dep, (ord dep).Perm dep) {pick : List Nat → Nat} {oe : Bool} {fs : List (FInfo × GV)} (hd : DistinctNames fs) {n : Nat} {j : J}
    (hm : marshal ord pick oe h n (.struct fs) = some j) :
    ∃ id m, j = .dict id m ∧
      (∀ i x k e, (i, x) ∈ fs → i.ignore = false → i.deprecatedBy = some k → DepEnd (depMap fs) k e → smGet m i.name = smGet m e) ∧
      (∀ i x k, (i, x) ∈ fs → i.ignore = false → i.deprecatedBy = some k → (¬ ∃ e, DepEnd (depMap fs) k e) → smGet m i.name = none) ∧
      (∀ k v, smGet m k = some v → ∃ i x, (i, x) ∈ fs ∧ i.ignore = false ∧ i.name = k) := by
  unfold marshal at hm
  rw [gmar_gd] at hm
  simp only [GV.mar] at hm
  cases hr : GV.marf ord oe (gd ord oe h n) fs .init with
  | none => rw [hr] at hm; cases hm
  | some r =>
    obtain ⟨s', ps, dep⟩ := r
    rw [hr] at hm
    simp only [structDict] at hm
    cases hdp : depPairs dep (dep.length + 1) ps (ord dep) with
    | none => rw [hdp] at hm; cases hm
    | some dps =>
      rw [hdp] at hm
      simp only [optEmpty, Bool.false_eq_true, false_and, and_false, if_false, forceStr, optForce] at hm
      cases hm
      simp only [MJ.finish]
      obtain ⟨n1, n2⟩ := struct_nodup hord hd hr hdp
      have hdep := marf_dep_gv fs _ s' ps dep hr
      subst hdep
      obtain ⟨_, g2⟩ := marf_names_gv fs _ s' ps _ hr
      have hchar := (Props.C41_result (depMap fs) (depMap_sorted fs) ps (ord (depMap fs)) (hord _) _ dps hdp).1
      have hget : ∀ k v, smGet (pairsDict (ps ++ dps)) k = some v ↔ (k, v) ∈ ps ∨ ∃ k' e, smGet (depMap fs) k = some k' ∧ DepEnd (depMap fs) k' e ∧ (e, v) ∈ ps := by
        intro k v
        rw [pairsDict_get _ n2, List.mem_append, hchar]
        simp only [findValueByKey_mem n1]
      have hps : ∀ k v, (k, v) ∈ ps → smGet (depMap fs) k = none := by
        intro k v hkv
        obtain ⟨i, x, m1, p1, rfl⟩ := g2 k (List.mem_map_of_mem (f := (·.1)) hkv)
        cases hg : smGet (depMap fs) i.name with
        | none => rfl
        | some k' =>
          obtain ⟨i', x', m2, p2, q2, d2⟩ := depMap_mem fs _ _ hg
          have := distinct_name hd m2 m1 p2 p1.1 q2
          cases this
          rw [p1.2] at d2; cases d2
      refine ⟨_, _, rfl, ?_, ?_, ?_⟩
      · intro i x k e hmem hi hk he
        have hg : smGet (depMap fs) i.name = some k := (depMap_iff fs hd _ _).2 ⟨i, x, hmem, hi, rfl, hk⟩
        have hend : smGet (depMap fs) e = none := depEnd_end he
        rw [finishf_map, smGet_mapv, smGet_mapv]
        congr 1
        have key : ∀ v, smGet (pairsDict (ps ++ dps)) i.name = some v ↔ smGet (pairsDict (ps ++ dps)) e = some v := by
          intro v
          rw [hget, hget]
          constructor
          · rintro (h1 | ⟨k', e', h1, h2, h3⟩)
            · rw [hps _ _ h1] at hg; cases hg
            · rw [hg] at h1; cases h1
              rw [depEnd_unique h2 he] at h3
              exact .inl h3
          · rintro (h1 | ⟨k', e', h1, _⟩)
            · exact .inr ⟨k, e, hg, he, h1⟩
            · rw [hend] at h1; cases h1
        cases h1 : smGet (pairsDict (ps ++ dps)) i.name with
        | none =>
          cases h2 : smGet (pairsDict (ps ++ dps)) e with
          | none => rfl
          | some v => rw [(key v).2 h2] at h1; cases h1
        | some v => exact ((key v).1 h1).symm
      · intro i x k hmem hi hk hne
        have hg : smGet (depMap fs) i.name = some k := (depMap_iff fs hd _ _).2 ⟨i, x, hmem, hi, rfl, hk⟩
        rw [finishf_map, smGet_mapv, Option.map_eq_none_iff]
        cases hv : smGet (pairsDict (ps ++ dps)) i.name with
        | none => rfl
        | some v =>
          rcases (hget _ _).1 hv with h1 | ⟨k', e, h1, h2, _⟩
          · rw [hps _ _ h1] at hg; cases hg
          · rw [hg] at h1; cases h1; exact absurd ⟨e, h2⟩ hne
      · intro k v hv
        rw [finishf_map, smGet_mapv] at hv
        cases hw : smGet (pairsDict (ps ++ dps)) k with
        | none => rw [hw] at hv; cases hv
        | some w =>
          rcases (hget k w).1 hw with h1 | ⟨k', e, h1, _⟩
          · obtain ⟨i, x, m1, p1, q1⟩ := g2 k (List.mem_map_of_mem (f := (·.1)) h1)
            exact ⟨i, x, m1, p1.1, q1⟩
          · obtain ⟨i, x, a, b, c, _⟩ := depMap_mem fs _ _ h1
            exact ⟨i, x, a, b, c⟩

end Jsonutils
