import Verif.Proofs.GraphMem
import Verif.Proofs.UnmarshalRT

/-! Unmarshal into a zero variable: what the document says about memory is true afterwards. -/

namespace Jsonutils

/-! ### `Holds` looks at the objects in `F` only -/

theorem Thru.mono {F F' : Nat → Prop} {M M' : List HV} {t : Ty} {c : HV} {t' : Ty} {c' : HV} {o : Option Loc} (h : Thru F M t c t' c' o)
    (hF : ∀ b, F b → F' b) (hM : ∀ b, F b → b < M.length → M'[b]? = M[b]?) : Thru F' M' t c t' c' o := by
  induction h with
  | here h => exact .here h
  | there h1 h2 _ ih =>
    refine .there (hF _ h1) ?_ ih
    rw [memGet_congr (hM _ h1 (memGet_lt h2)), h2]

theorem lt_of_get {M : List HV} {b : Nat} {o : HV} (h : M[b]? = some o) : b < M.length := (List.getElem?_eq_some_iff.1 h).1

section
variable {P : UEnv} {F F' : Nat → Prop} {M M' : List HV} {D D' : Int → Option Loc}

theorem HoldsScalar.mono {j : J} {t : Ty} {c : HV} (h : HoldsScalar P F M j t c)
    (hF : ∀ b, F b → F' b) (hM : ∀ b, F b → b < M.length → M'[b]? = M[b]?) : HoldsScalar P F' M' j t c := by
  obtain ⟨t', c', o, h1, h2⟩ := h
  exact ⟨t', c', o, h1.mono hF hM, h2⟩

/-- The node ids and references in the document. -/
def Occurs (evs : List NodeEv) (id : Int) : Prop := .use id ∈ evs ∨ .defn id ∈ evs

theorem Occurs.left {a : List NodeEv} (b : List NodeEv) {id : Int} (h : Occurs a id) : Occurs (a ++ b) id :=
  h.imp (List.mem_append_left _) (List.mem_append_left _)
theorem Occurs.right (a : List NodeEv) {b : List NodeEv} {id : Int} (h : Occurs b id) : Occurs (a ++ b) id :=
  h.imp (List.mem_append_right _) (List.mem_append_right _)

mutual
theorem holds_mono (hF : ∀ b, F b → F' b) (hM : ∀ b, F b → b < M.length → M'[b]? = M[b]?) :
    ∀ (j : J) (t : Ty) (c : HV), (∀ id, Occurs j.events id → D' id = D id) → j.Holds P F M D t c → j.Holds P F' M' D' t c
  | .null, t, c, _, h => h
  | .ptr id, t, c, hD, h => by
    have : D' id = D id := hD id (Or.inl (by simp [J.events]))
    simp only [J.Holds] at h ⊢
    rw [this]; exact h
  | .arr xs, t, c, hD, h => by
    obtain ⟨t', c', o, h1, h2⟩ := h
    refine ⟨t', c', o, h1.mono hF hM, ?_⟩
    rcases h2 with ⟨e, b, ys, e1, e2, e3, e4, e5⟩ | ⟨n, e, ys, e1, e2, e3⟩
    · exact Or.inl ⟨e, b, ys, e1, e2, hF _ e3, by rw [hM b e3 (lt_of_get e4), e4], holdss_mono hF hM xs e ys hD e5⟩
    · exact Or.inr ⟨n, e, ys, e1, e2, holdss_mono hF hM xs e ys hD e3⟩
  | .dict id kvs, t, c, hD, h => by
    obtain ⟨t', c', o, h1, h2, h3⟩ := h
    refine ⟨t', c', o, h1.mono hF hM, ?_, ?_⟩
    · intro hi
      obtain ⟨a, b⟩ := h2 hi
      exact ⟨a, by rw [hD id (Or.inr (by simp [J.events, hi]))]; exact b⟩
    · have hD' : ∀ id, Occurs (J.eventsf kvs) id → D' id = D id := fun i hi => hD i (by rw [J.events]; exact hi.right _)
      rcases h3 with ⟨n, fs, vs, e1, e2, e3, e4, e5, e6⟩ | ⟨e, b, m, e1, e2, e3, e4, e5⟩
      · exact Or.inl ⟨n, fs, vs, e1, e2, e3, e4, holdsf_mono hF hM kvs n fs vs hD' e5, e6⟩
      · exact Or.inr ⟨e, b, m, e1, e2, hF _ e3, by rw [hM b e3 (lt_of_get e4), e4], holdsm_mono hF hM kvs e m hD' e5⟩
  | .bool _, t, c, _, h => HoldsScalar.mono h hF hM
  | .int _, t, c, _, h => HoldsScalar.mono h hF hM
  | .float _ _, t, c, _, h => HoldsScalar.mono h hF hM
  | .str _, t, c, _, h => HoldsScalar.mono h hF hM
theorem holdss_mono (hF : ∀ b, F b → F' b) (hM : ∀ b, F b → b < M.length → M'[b]? = M[b]?) :
    ∀ (xs : List J) (t : Ty) (ys : List HV), (∀ id, Occurs (J.eventss xs) id → D' id = D id) → J.Holdss P F M D xs t ys → J.Holdss P F' M' D' xs t ys
  | [], _, _, _, h => h
  | x :: xs, t, ys, hD, h => by
    obtain ⟨c, r, h1, h2, h3⟩ := h
    exact ⟨c, r, h1, holds_mono hF hM x t c (fun i hi => hD i (by rw [J.eventss]; exact hi.left _)) h2,
      holdss_mono hF hM xs t r (fun i hi => hD i (by rw [J.eventss]; exact hi.right _)) h3⟩
theorem holdsm_mono (hF : ∀ b, F b → F' b) (hM : ∀ b, F b → b < M.length → M'[b]? = M[b]?) :
    ∀ (xs : List (Bytes × J)) (t : Ty) (ys : List (Bytes × HV)), (∀ id, Occurs (J.eventsf xs) id → D' id = D id) → J.Holdsm P F M D xs t ys → J.Holdsm P F' M' D' xs t ys
  | [], _, _, _, h => h
  | (k, x) :: xs, t, ys, hD, h => by
    obtain ⟨c, r, h1, h2, h3⟩ := h
    exact ⟨c, r, h1, holds_mono hF hM x t c (fun i hi => hD i (by rw [J.eventsf]; exact hi.left _)) h2,
      holdsm_mono hF hM xs t r (fun i hi => hD i (by rw [J.eventsf]; exact hi.right _)) h3⟩
theorem holdsf_mono (hF : ∀ b, F b → F' b) (hM : ∀ b, F b → b < M.length → M'[b]? = M[b]?) :
    ∀ (xs : List (Bytes × J)) (n : Nat) (fs : List (FInfo × Ty)) (vs : List HV), (∀ id, Occurs (J.eventsf xs) id → D' id = D id) → J.Holdsf P F M D xs n fs vs → J.Holdsf P F' M' D' xs n fs vs
  | [], _, _, _, _, h => h
  | (k, x) :: xs, n, fs, vs, hD, h => by
    obtain ⟨⟨i, info, t, c, h1, h2, h3, h4⟩, h5⟩ := h
    exact ⟨⟨i, info, t, c, h1, h2, h3, holds_mono hF hM x t c (fun i hi => hD i (by rw [J.eventsf]; exact hi.left _)) h4⟩,
      holdsf_mono hF hM xs n fs vs (fun i hi => hD i (by rw [J.eventsf]; exact hi.right _)) h5⟩
end
end

/-! ### Sessions -/

/-- Where the nodes are. -/
def UH.where (s : UH) (id : Int) : Option Loc := match s.sess id with
  | some ⟨some p, _⟩ => some p.1
  | _ => none

/-- The node has been read, into a variable of its type. -/
def Known (τ : Int → Ty) (s : UH) (id : Int) : Prop := ∃ p, s.sess id = some ⟨some (p, τ id), []⟩
/-- The node has been referred to, but not been read. -/
def Pend (τ : Int → Ty) (s : UH) (id : Int) : Prop := ∃ ts, s.sess id = some ⟨none, ts⟩ ∧ ts ≠ [] ∧ ∀ v ∈ ts, v.2 = .ptr (τ id)

/-- The session before reading `evs`: every node is known or waited for or neither; no node is read twice. -/
structure Pre (τ : Int → Ty) (evs : List NodeEv) (s : UH) : Prop where
  known : ∀ id, s.sess id = none ∨ Known τ s id ∨ Pend τ s id
  fresh : ∀ id, .defn id ∈ evs → ¬ Known τ s id
  once : (defIds evs).Nodup

/-- No reference comes before its node. -/
def Good (evs : List NodeEv) (s : UH) : Prop := ∀ pre id post, evs = pre ++ .defn id :: post → s.sess id = none ∧ .use id ∉ pre

/-- The session after reading `evs`. -/
structure Step (τ : Int → Ty) (evs : List NodeEv) (s s' : UH) : Prop where
  keep : ∀ id, Known τ s id → s'.sess id = s.sess id
  got : ∀ id, .defn id ∈ evs → Known τ s' id
  same : ∀ id, .defn id ∉ evs → .use id ∉ evs → s'.sess id = s.sess id
  pend : ∀ id, .defn id ∉ evs → ¬ Known τ s id → .use id ∈ evs → Pend τ s' id

theorem defIds_append (a b : List NodeEv) : defIds (a ++ b) = defIds a ++ defIds b := List.filterMap_append ..

theorem mem_defIds {id : Int} {evs : List NodeEv} : id ∈ defIds evs ↔ .defn id ∈ evs := by
  simp only [defIds, List.mem_filterMap]
  constructor
  · rintro ⟨e, h1, h2⟩
    cases e <;> simp at h2
    subst h2; exact h1
  · intro h; exact ⟨_, h, rfl⟩

theorem Pend.not_known {τ : Int → Ty} {s : UH} {id : Int} (h : Pend τ s id) : ¬ Known τ s id := by
  rintro ⟨p, hp⟩
  obtain ⟨ts, ht, _⟩ := h
  rw [ht] at hp; simp at hp

theorem Pend.where {τ : Int → Ty} {s : UH} {id : Int} (h : Pend τ s id) : s.where id = none := by
  obtain ⟨ts, ht, _⟩ := h
  simp only [UH.where, ht]

theorem Known.congr {τ : Int → Ty} {s s' : UH} {id : Int} (h : s'.sess id = s.sess id) : Known τ s' id ↔ Known τ s id := by
  unfold Known; rw [h]
theorem Pend.congr {τ : Int → Ty} {s s' : UH} {id : Int} (h : s'.sess id = s.sess id) : Pend τ s' id ↔ Pend τ s id := by
  unfold Pend; rw [h]

theorem Pre.left {τ : Int → Ty} {a b : List NodeEv} {s : UH} (h : Pre τ (a ++ b) s) : Pre τ a s where
  known := h.known
  fresh := fun id hi => h.fresh id (List.mem_append_left _ hi)
  once := by have := h.once; rw [defIds_append] at this; exact (List.nodup_append.1 this).1

theorem Pre.disjoint {τ : Int → Ty} {a b : List NodeEv} {s : UH} (h : Pre τ (a ++ b) s) {id : Int} (ha : .defn id ∈ a) (hb : .defn id ∈ b) : False := by
  have ho := h.once
  rw [defIds_append] at ho
  exact (List.nodup_append.1 ho).2.2 id (mem_defIds.2 ha) id (mem_defIds.2 hb) rfl

theorem Pre.right {τ : Int → Ty} {a b : List NodeEv} {s s' : UH} (h : Pre τ (a ++ b) s) (hs : Step τ a s s') : Pre τ b s' where
  known := by
    intro id
    by_cases hk : Known τ s id
    · exact Or.inr (Or.inl ((Known.congr (hs.keep id hk)).2 hk))
    · by_cases ha : .defn id ∈ a
      · exact Or.inr (Or.inl (hs.got id ha))
      · by_cases hu : .use id ∈ a
        · exact Or.inr (Or.inr (hs.pend id ha hk hu))
        · have := hs.same id ha hu
          rw [this, Known.congr this, Pend.congr this]
          exact h.known id
  fresh := by
    intro id hi
    have hk : ¬ Known τ s id := h.fresh id (List.mem_append_right _ hi)
    have ha : .defn id ∉ a := fun ha => h.disjoint ha hi
    by_cases hu : .use id ∈ a
    · exact (hs.pend id ha hk hu).not_known
    · rw [Known.congr (hs.same id ha hu)]; exact hk
  once := by have := h.once; rw [defIds_append] at this; exact (List.nodup_append.1 this).2.1

theorem Good.left {a b : List NodeEv} {s : UH} (h : Good (a ++ b) s) : Good a s := fun pre id post e => h pre id (post ++ b) (by simp [e])

theorem Good.right {τ : Int → Ty} {a b : List NodeEv} {s s' : UH} (h : Good (a ++ b) s) (hp : Pre τ (a ++ b) s) (hs : Step τ a s s') : Good b s' := by
  intro pre id post e
  obtain ⟨h1, h2⟩ := h (a ++ pre) id post (by simp [e])
  have hb : .defn id ∈ b := by rw [e]; simp
  have ha : .defn id ∉ a := fun ha => hp.disjoint ha hb
  exact ⟨by rw [hs.same id ha fun hu => h2 (List.mem_append_left _ hu)]; exact h1, fun hu => h2 (List.mem_append_right _ hu)⟩

theorem append_eq_split {α : Type} {a b pre post : List α} {x : α} (h : a ++ b = pre ++ x :: post) :
    (∃ r, a = pre ++ x :: r) ∨ ∃ p, pre = a ++ p ∧ b = p ++ x :: post := by
  rcases List.append_eq_append_iff.1 h with ⟨p, h1, h2⟩ | ⟨p, h1, h2⟩
  · exact Or.inr ⟨p, h1, h2⟩
  · cases p with
    | nil => exact Or.inr ⟨[], by simpa using h1.symm, by simpa using h2.symm⟩
    | cons y p =>
      simp only [List.cons_append, List.cons.injEq] at h2
      exact Or.inl ⟨p, by rw [h1, h2.1]⟩

theorem Good.append {τ : Int → Ty} {a b : List NodeEv} {s s' : UH} (h1 : Good a s) (h2 : Good b s') (hp : Pre τ (a ++ b) s) (hs : Step τ a s s') : Good (a ++ b) s := by
  intro pre id post e
  rcases append_eq_split e with ⟨r, hr⟩ | ⟨p, rfl, hb⟩
  · exact h1 pre id r hr
  · obtain ⟨h3, h4⟩ := h2 p id post hb
    have hb' : .defn id ∈ b := by rw [hb]; simp
    have ha : .defn id ∉ a := fun ha => hp.disjoint ha hb'
    have hk : ¬ Known τ s id := hp.fresh id (List.mem_append_right _ hb')
    have hu : .use id ∉ a := by
      intro hu
      obtain ⟨ts, ht, _⟩ := hs.pend id ha hk hu
      rw [ht] at h3; cases h3
    refine ⟨by rw [← hs.same id ha hu]; exact h3, ?_⟩
    rw [List.mem_append]; rintro (h | h)
    · exact hu h
    · exact h4 h

theorem Step.of_sess {τ : Int → Ty} {s s' : UH} (h : s'.sess = s.sess) : Step τ [] s s' :=
  ⟨fun _ _ => by rw [h], fun _ hx => (List.not_mem_nil hx).elim, fun _ _ _ => by rw [h], fun _ _ _ hx => (List.not_mem_nil hx).elim⟩

theorem Step.append {τ : Int → Ty} {a b : List NodeEv} {s s1 s2 : UH} (h1 : Step τ a s s1) (h2 : Step τ b s1 s2) : Step τ (a ++ b) s s2 where
  keep := fun id hk => by
    have e := h1.keep id hk
    rw [h2.keep id ((Known.congr e).2 hk), e]
  got := fun id hi => by
    by_cases hb : .defn id ∈ b
    · exact h2.got id hb
    · rcases List.mem_append.1 hi with ha | hb'
      · have := h1.got id ha
        exact (Known.congr (h2.keep id this)).2 this
      · exact absurd hb' hb
  same := fun id hd hu => by
    rw [List.mem_append, not_or] at hd hu
    rw [h2.same id hd.2 hu.2, h1.same id hd.1 hu.1]
  pend := fun id hd hk hu => by
    rw [List.mem_append, not_or] at hd
    by_cases hua : .use id ∈ a
    · have hp := h1.pend id hd.1 hk hua
      by_cases hub : .use id ∈ b
      · exact h2.pend id hd.2 hp.not_known hub
      · exact (Pend.congr (h2.same id hd.2 hub)).2 hp
    · have hub : .use id ∈ b := (List.mem_append.1 hu).resolve_left hua
      have e := h1.same id hd.1 hua
      exact h2.pend id hd.2 (fun h => hk ((Known.congr e).1 h)) hub

/-- Later reading does not change where the nodes met so far are. -/
theorem Step.where {τ : Int → Ty} {a b : List NodeEv} {s s1 s2 : UH} (hg : Good (a ++ b) s) (h1 : Step τ a s s1) (h2 : Step τ b s1 s2) :
    ∀ id, Occurs a id → s2.where id = s1.where id := by
  intro id ho
  by_cases hk : Known τ s1 id
  · simp only [UH.where, h2.keep id hk]
  · have hks : ¬ Known τ s id := fun h => hk ((Known.congr (h1.keep id h)).2 h)
    have hda : .defn id ∉ a := fun h => hk (h1.got id h)
    have hu : .use id ∈ a := ho.resolve_right hda
    have hpend := h1.pend id hda hks hu
    have hdb : .defn id ∉ b := by
      intro h
      obtain ⟨pre, post, e⟩ := List.append_of_mem h
      exact (hg (a ++ pre) id post (by simp [e])).2 (List.mem_append_left _ hu)
    by_cases hub : .use id ∈ b
    · rw [(h2.pend id hdb hk hub).where, hpend.where]
    · simp only [UH.where, h2.same id hdb hub]

/-! ### Scalars -/

theorem halloc_nonptr (P : UEnv) {t : Ty} (h : t.ScalarChain) (hn : ∀ t', t ≠ .ptr t') (l : Loc) (s : UH) : P.halloc t l s = s := by
  cases t <;> first | rfl | exact (show False from h).elim | exact absurd rfl (hn _)

theorem halloc_ptr (P : UEnv) (t : Ty) (l : Loc) (s : UH) (h : s.get l = some (P.hzero (.ptr t))) :
    P.halloc (.ptr t) l s = P.halloc t ⟨s.mem.length, []⟩ ⟨memSet s.mem l (.ptr ⟨s.mem.length, []⟩) ++ [P.hzero t], s.sess⟩ := by
  have hl := memGet_lt h
  rw [UEnv.halloc]
  rw [h, hzero_ptr]
  simp only [UH.new, UH.set]
  rw [memSet_append hl]

theorem get_fresh (P : UEnv) (t : Ty) (M : List HV) (l : Loc) (c : HV) (f : Int → Option HNode) :
    UH.get ⟨memSet M l c ++ [P.hzero t], f⟩ ⟨M.length, []⟩ = some (P.hzero t) := by
  simp only [UH.get]
  have := memGet_new (memSet M l c) (P.hzero t) [] []
  rw [memSet_length] at this
  exact this

theorem frame_self {s x : UH} {l : Loc} {c : HV} (h : s.get l = some c) (hx : x = s) : ∃ c new, x = ⟨memSet s.mem l c ++ new, s.sess⟩ :=
  ⟨c, [], by rw [memSet_self h, List.append_nil]; exact hx⟩

/-- Allocation changes the variable, and creates objects. -/
theorem halloc_frame (P : UEnv) : ∀ (t : Ty) (l : Loc) (s : UH), t.ScalarChain → s.get l = some (P.hzero t) →
    ∃ c new, P.halloc t l s = ⟨memSet s.mem l c ++ new, s.sess⟩
  | .ptr t, l, s, ht, h => by
    rw [halloc_ptr P t l s h]
    obtain ⟨c, new, e⟩ := halloc_frame P t ⟨s.mem.length, []⟩ ⟨memSet s.mem l (.ptr ⟨s.mem.length, []⟩) ++ [P.hzero t], s.sess⟩ ht (get_fresh P t ..)
    rw [e]
    refine ⟨.ptr ⟨s.mem.length, []⟩, [c] ++ new, ?_⟩
    simp only
    have := memSet_new (memSet s.mem l (.ptr ⟨s.mem.length, []⟩)) (P.hzero t) [] [] c
    rw [memSet_length] at this
    rw [this]
    simp [HV.put]
  | .bool, l, s, _, h => frame_self h rfl
  | .int _, l, s, _, h => frame_self h rfl
  | .uint _, l, s, _, h => frame_self h rfl
  | .float32, l, s, _, h => frame_self h rfl
  | .float64, l, s, _, h => frame_self h rfl
  | .string, l, s, _, h => frame_self h rfl
  | .slice _, _, _, h, _ => (show False from h).elim
  | .array _ _, _, _, h, _ => (show False from h).elim
  | .map _, _, _, h, _ => (show False from h).elim
  | .mapOther _, _, _, h, _ => (show False from h).elim
  | .struct _, _, _, h, _ => (show False from h).elim
  | .any, _, _, h, _ => (show False from h).elim
  | .jobj, _, _, h, _ => (show False from h).elim
  | .jptr _, _, _, h, _ => (show False from h).elim
  | .jval _, _, _, h, _ => (show False from h).elim
  | .other, _, _, h, _ => (show False from h).elim

theorem memSet_fresh (P : UEnv) (t : Ty) (M : List HV) (l : Loc) (w c : HV) :
    memSet (memSet M l w ++ [P.hzero t]) ⟨M.length, []⟩ c = memSet M l w ++ [c] := by
  have := memSet_new (memSet M l w) (P.hzero t) [] [] c
  rw [memSet_length] at this
  exact this

theorem hscalar_base {f : Ty → UV → URes} {P : UEnv} {t : Ty} (ht : t.ScalarChain) (hn : ∀ t', t ≠ .ptr t') {l : Loc} {s : UH} (h : s.get l = some (P.hzero t))
    {u : UV} (hu : f t (P.zero t) = uok u) : hscalar f t l (P.halloc t l s) = some (⟨memSet s.mem l (.val u), s.sess⟩, none) := by
  rw [halloc_nonptr P ht hn]
  have : hscalar f t l s = hstore (f t) l s := by
    cases t <;> first | rfl | exact absurd rfl (hn _)
  rw [this]
  simp only [hstore, h, hzero_scalar P ht, HV.plainVal, hu, uok, UH.set]

theorem scalar_base {f : Ty → UV → URes} {P : UEnv} {t : Ty} (ht : t.ScalarChain) (hn : ∀ t', t ≠ .ptr t') (he : t.chainEnd = t) {l : Loc} {s : UH} (h : s.get l = some (P.hzero t))
    {u : UV} (hu : f t.chainEnd (P.zero t.chainEnd) = uok u) :
    ∃ c new o, hscalar f t l (P.halloc t l s) = some (⟨memSet s.mem l c ++ new, s.sess⟩, none) ∧
      Thru (s.mem.length ≤ ·) (memSet s.mem l c ++ new) t c t.chainEnd (.val u) o := by
  rw [he] at hu ⊢
  exact ⟨.val u, [], none, by rw [hscalar_base ht hn h hu, List.append_nil], .here hn⟩

theorem scalar_done {f : Ty → UV → URes} (P : UEnv) {u : UV} : ∀ (t : Ty) (l : Loc) (s : UH), t.ScalarChain → s.get l = some (P.hzero t) →
    f t.chainEnd (P.zero t.chainEnd) = uok u →
    ∃ c new o, hscalar f t l (P.halloc t l s) = some (⟨memSet s.mem l c ++ new, s.sess⟩, none) ∧
      Thru (s.mem.length ≤ ·) (memSet s.mem l c ++ new) t c t.chainEnd (.val u) o
  | .ptr t, l, s, ht, h, hu => by
    have hl := memGet_lt h
    rw [halloc_ptr P t l s h]
    let s1 : UH := ⟨memSet s.mem l (.ptr ⟨s.mem.length, []⟩) ++ [P.hzero t], s.sess⟩
    have hg1 : s1.get ⟨s.mem.length, []⟩ = some (P.hzero t) := get_fresh P t ..
    obtain ⟨c, new, o, e1, e2⟩ := scalar_done P t ⟨s.mem.length, []⟩ s1 ht hg1 hu
    obtain ⟨c', new', e'⟩ := halloc_frame P t ⟨s.mem.length, []⟩ s1 ht hg1
    have hg2 : (P.halloc t ⟨s.mem.length, []⟩ s1).get l = some (.ptr ⟨s.mem.length, []⟩) := by
      rw [e']
      simp only [UH.get, s1]
      rw [memSet_fresh, List.append_assoc, memGet_append (by rw [memSet_length]; exact hl)]
      exact memGet_set h _
    rw [hscalar, hg2]
    simp only
    rw [e1]
    have hm : memSet s1.mem ⟨s.mem.length, []⟩ c ++ new = memSet s.mem l (.ptr ⟨s.mem.length, []⟩) ++ ([c] ++ new) := by
      simp only [s1]
      rw [memSet_fresh, List.append_assoc]
    rw [hm] at e2 ⊢
    refine ⟨_, _, o.or (some ⟨s.mem.length, []⟩), rfl, .there (Nat.le_refl _) ?_ (e2.mono ?_ fun _ _ _ => rfl)⟩
    · have := memGet_new (memSet s.mem l (.ptr ⟨s.mem.length, []⟩)) c new []
      rw [memSet_length] at this
      exact this
    · intro b hb
      have : s1.mem.length = s.mem.length + 1 := by simp [s1, memSet_length]
      omega
  | .bool, l, s, ht, h, hu => scalar_base ht (by simp) rfl h hu
  | .int _, l, s, ht, h, hu => scalar_base ht (by simp) rfl h hu
  | .uint _, l, s, ht, h, hu => scalar_base ht (by simp) rfl h hu
  | .float32, l, s, ht, h, hu => scalar_base ht (by simp) rfl h hu
  | .float64, l, s, ht, h, hu => scalar_base ht (by simp) rfl h hu
  | .string, l, s, ht, h, hu => scalar_base ht (by simp) rfl h hu
  | .slice _, _, _, h, _, _ => (show False from h).elim
  | .array _ _, _, _, h, _, _ => (show False from h).elim
  | .map _, _, _, h, _, _ => (show False from h).elim
  | .mapOther _, _, _, h, _, _ => (show False from h).elim
  | .struct _, _, _, h, _, _ => (show False from h).elim
  | .any, _, _, h, _, _ => (show False from h).elim
  | .jobj, _, _, h, _, _ => (show False from h).elim
  | .jptr _, _, _, h, _, _ => (show False from h).elim
  | .jval _, _, _, h, _, _ => (show False from h).elim
  | .other, _, _, h, _, _ => (show False from h).elim

theorem hstr_scalar (P : UEnv) (x : Bytes) : ∀ (t : Ty) (l : Loc) (s : UH), t.ScalarChain → hstr P x t l s = hscalar (unmStr P x) t l s
  | .ptr t, l, s, ht => by
    rw [hstr, hscalar]
    cases hg : s.get l with
    | none => rfl
    | some c =>
      cases c <;> try rfl
      exact hstr_scalar P x t _ s ht
  | .bool, l, s, _ => rfl
  | .int _, l, s, _ => rfl
  | .uint _, l, s, _ => rfl
  | .float32, l, s, _ => rfl
  | .float64, l, s, _ => rfl
  | .string, l, s, _ => rfl
  | .slice _, _, _, h => (show False from h).elim
  | .array _ _, _, _, h => (show False from h).elim
  | .map _, _, _, h => (show False from h).elim
  | .mapOther _, _, _, h => (show False from h).elim
  | .struct _, _, _, h => (show False from h).elim
  | .any, _, _, h => (show False from h).elim
  | .jobj, _, _, h => (show False from h).elim
  | .jptr _, _, _, h => (show False from h).elim
  | .jval _, _, _, h => (show False from h).elim
  | .other, _, _, h => (show False from h).elim

theorem chainEnd_scalar : ∀ {t : Ty}, t.ScalarChain → t.chainEnd.ScalarChain ∧ ∀ t', t.chainEnd ≠ .ptr t'
  | .ptr t, h => chainEnd_scalar (t := t) h
  | .bool, h => ⟨h, by simp [Ty.chainEnd]⟩
  | .int _, h => ⟨h, by simp [Ty.chainEnd]⟩
  | .uint _, h => ⟨h, by simp [Ty.chainEnd]⟩
  | .float32, h => ⟨h, by simp [Ty.chainEnd]⟩
  | .float64, h => ⟨h, by simp [Ty.chainEnd]⟩
  | .string, h => ⟨h, by simp [Ty.chainEnd]⟩
  | .slice _, h => (show False from h).elim
  | .array _ _, h => (show False from h).elim
  | .map _, h => (show False from h).elim
  | .mapOther _, h => (show False from h).elim
  | .struct _, h => (show False from h).elim
  | .any, h => (show False from h).elim
  | .jobj, h => (show False from h).elim
  | .jptr _, h => (show False from h).elim
  | .jval _, h => (show False from h).elim
  | .other, h => (show False from h).elim

theorem alloc_scalar (P : UEnv) {t : Ty} (h : t.ScalarChain) (hn : ∀ t', t ≠ .ptr t') (v : UV) : P.alloc t v = v := by
  cases t <;> first | (simp [UEnv.alloc]; done) | exact (show False from h).elim | exact absurd rfl (hn _)

/-! ### Everything -/

/-- The document was unmarshalled into the variable at `l`: only the variable changed, and new objects came into being. -/
def Done (P : UEnv) (τ : Int → Ty) (j : J) (t : Ty) (l : Loc) (s : UH) : Prop :=
  ∃ c new f, j.hunm P t l s = some (⟨memSet s.mem l c ++ new, f⟩, none) ∧
    j.Holds P (s.mem.length ≤ ·) (memSet s.mem l c ++ new) (UH.where ⟨memSet s.mem l c ++ new, f⟩) t c ∧
    Step τ j.events s ⟨memSet s.mem l c ++ new, f⟩

theorem scalarJ_done {P : UEnv} {τ : Int → Ty} {j : J} {f : Ty → UV → URes} (hj : ∀ t v, j.unm P t v = f t (P.alloc t v))
    (hh : ∀ t l s, t.ScalarChain → j.hunm P t l s = hscalar f t l (P.halloc t l s)) (hev : j.events = [])
    (hho : ∀ F M D t c, HoldsScalar P F M j t c → j.Holds P F M D t c)
    {t : Ty} {l : Loc} {s : UH} (hf : FitsScalar P j t) (hz : s.get l = some (P.hzero t)) : Done P τ j t l s := by
  obtain ⟨ht, u, hu⟩ := hf
  obtain ⟨h1, h2⟩ := chainEnd_scalar ht
  have hu' := hu
  rw [hj, alloc_scalar P h1 h2] at hu'
  obtain ⟨c, new, o, e1, e2⟩ := scalar_done P t l s ht hz hu'
  exact ⟨c, new, s.sess, by rw [hh t l s ht, e1], hho _ _ _ _ _ ⟨_, _, o, e2, u, hu, rfl⟩, by rw [hev]; exact Step.of_sess rfl⟩

end Jsonutils
