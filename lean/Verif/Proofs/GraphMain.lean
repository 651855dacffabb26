import Verif.Proofs.Graph

namespace Jsonutils

/-! ### Arrays and dictionaries, apart from the pointer before them -/

def ArrBody (P : UEnv) (F : Nat → Prop) (M : List HV) (D : Int → Option Loc) (xs : List J) (t' : Ty) (c' : HV) : Prop :=
  (∃ e b ys, t' = .slice e ∧ c' = .seq b xs.length ∧ F b ∧ M[b]? = some (.arr ys) ∧ J.Holdss P F M D xs e ys) ∨
  (∃ n e ys, t' = .array n e ∧ c' = .arr ys ∧ J.Holdss P F M D xs e ys)

def DictBody (P : UEnv) (F : Nat → Prop) (M : List HV) (D : Int → Option Loc) (kvs : List (Bytes × J)) (t' : Ty) (c' : HV) : Prop :=
  (∃ n fs vs, t' = .struct n ∧ P.defs[n]? = some fs ∧ c' = .struct vs ∧ vs.length = fs.length ∧ J.Holdsf P F M D kvs n fs vs ∧
      ∀ i info ti, fs[i]? = some (info, ti) → (∀ p ∈ kvs, P.idx n p.1 ≠ [i]) → vs[i]? = some (P.hzero ti)) ∨
  (∃ e b m, t' = .map e ∧ c' = .map b ∧ F b ∧ M[b]? = some (.mapObj m) ∧ J.Holdsm P F M D kvs e m)

theorem ArrBody.mono {P : UEnv} {F F' : Nat → Prop} {M M' : List HV} {D D' : Int → Option Loc} {xs : List J} {t : Ty} {c : HV} (h : ArrBody P F M D xs t c)
    (hF : ∀ b, F b → F' b) (hM : ∀ b, F b → b < M.length → M'[b]? = M[b]?) (hD : ∀ id, Occurs (J.eventss xs) id → D' id = D id) : ArrBody P F' M' D' xs t c := by
  rcases h with ⟨e, b, ys, e1, e2, e3, e4, e5⟩ | ⟨n, e, ys, e1, e2, e3⟩
  · exact Or.inl ⟨e, b, ys, e1, e2, hF _ e3, by rw [hM b e3 (lt_of_get e4), e4], holdss_mono hF hM xs e ys hD e5⟩
  · exact Or.inr ⟨n, e, ys, e1, e2, holdss_mono hF hM xs e ys hD e3⟩

theorem DictBody.mono {P : UEnv} {F F' : Nat → Prop} {M M' : List HV} {D D' : Int → Option Loc} {kvs : List (Bytes × J)} {t : Ty} {c : HV} (h : DictBody P F M D kvs t c)
    (hF : ∀ b, F b → F' b) (hM : ∀ b, F b → b < M.length → M'[b]? = M[b]?) (hD : ∀ id, Occurs (J.eventsf kvs) id → D' id = D id) : DictBody P F' M' D' kvs t c := by
  rcases h with ⟨n, fs, vs, e1, e2, e3, e4, e5, e6⟩ | ⟨e, b, m, e1, e2, e3, e4, e5⟩
  · exact Or.inl ⟨n, fs, vs, e1, e2, e3, e4, holdsf_mono hF hM kvs n fs vs hD e5, e6⟩
  · exact Or.inr ⟨e, b, m, e1, e2, hF _ e3, by rw [hM b e3 (lt_of_get e4), e4], holdsm_mono hF hM kvs e m hD e5⟩

/-- The state after the allocation of a nil pointer at `l` to a variable of type `t`. -/
def allocated (P : UEnv) (t : Ty) (l : Loc) (s : UH) : UH := ⟨memSet s.mem l (.ptr ⟨s.mem.length, []⟩) ++ [P.hzero t], s.sess⟩

theorem allocated_get (P : UEnv) (t : Ty) (l : Loc) (s : UH) : (allocated P t l s).get ⟨s.mem.length, []⟩ = some (P.hzero t) := get_fresh P t ..

theorem allocated_get_ptr (P : UEnv) (t : Ty) {l : Loc} {s : UH} {c : HV} (h : s.get l = some c) : (allocated P t l s).get l = some (.ptr ⟨s.mem.length, []⟩) := by
  simp only [UH.get, allocated]
  rw [memGet_append (by rw [memSet_length]; exact memGet_lt h)]
  exact memGet_set h _

theorem allocated_length (P : UEnv) (t : Ty) (l : Loc) (s : UH) : (allocated P t l s).mem.length = s.mem.length + 1 := by
  simp [allocated, memSet_length]

theorem allocated_set (P : UEnv) (t : Ty) (l : Loc) (s : UH) (c : HV) (new : List HV) :
    memSet (allocated P t l s).mem ⟨s.mem.length, []⟩ c ++ new = memSet s.mem l (.ptr ⟨s.mem.length, []⟩) ++ (c :: new) := by
  simp only [allocated]
  rw [memSet_fresh, List.append_assoc]; rfl

theorem thru_allocated {P : UEnv} {t : Ty} (hn : ∀ t', t ≠ .ptr t') (l : Loc) (s : UH) (c : HV) (new : List HV) :
    Thru (s.mem.length ≤ ·) (memSet s.mem l (.ptr ⟨s.mem.length, []⟩) ++ (c :: new)) (.ptr t) (.ptr ⟨s.mem.length, []⟩) t c (some ⟨s.mem.length, []⟩) := by
  refine .there (o := none) (Nat.le_refl _) ?_ (.here hn)
  have := memGet_new (memSet s.mem l (.ptr ⟨s.mem.length, []⟩)) c new []
  rw [memSet_length] at this
  exact this

theorem halloc_seq (P : UEnv) {t : Ty} (h : t.isSeq = true) (l : Loc) (s : UH) : P.halloc t l s = s := by
  cases t <;> first | rfl | simp [Ty.isSeq] at h
theorem halloc_dict (P : UEnv) {t : Ty} (h : t.isStructOrMap = true) (l : Loc) (s : UH) : P.halloc t l s = s := by
  cases t <;> first | rfl | simp [Ty.isStructOrMap] at h
theorem seq_nonptr {t : Ty} (h : t.isSeq = true) : ∀ t', t ≠ .ptr t' := by
  intro t' e; subst e; simp [Ty.isSeq] at h
theorem dict_nonptr {t : Ty} (h : t.isStructOrMap = true) : ∀ t', t ≠ .ptr t' := by
  intro t' e; subst e; simp [Ty.isStructOrMap] at h

theorem hunm_arr (P : UEnv) (xs : List J) {t : Ty} (h : t.isSeq = true) (l : Loc) (s : UH) :
    (J.arr xs).hunm P t l s = harr P xs (fun t l s => J.hunms P xs t l 0 s) t l s := by
  cases t <;> first | (simp only [J.hunm]; rfl) | simp [Ty.isSeq] at h

theorem hunm_arr_ptr (P : UEnv) (xs : List J) {t : Ty} (h : t.isSeq = true) (l : Loc) (s : UH) (hz : s.get l = some (P.hzero (.ptr t))) :
    (J.arr xs).hunm P (.ptr t) l s = harr P xs (fun t l s => J.hunms P xs t l 0 s) t ⟨s.mem.length, []⟩ (allocated P t l s) := by
  rw [J.hunm, halloc_ptr P t l s hz, halloc_seq P h]
  have := allocated_get_ptr P t hz
  simp only [allocated] at this
  simp only [h, if_true, this, allocated]

theorem hunm_dict (P : UEnv) (id : Int) (kvs : List (Bytes × J)) {t : Ty} (h : t.isStructOrMap = true) (l : Loc) (s : UH) (hid : id ≤ 0) :
    (J.dict id kvs).hunm P t l s = hdict id kvs (fun t l s => J.hunmm P kvs t l s) (fun n l s => J.hunmf P kvs n l s) t l s := by
  have : s.saveNode id (l, t) = some s := by simp [UH.saveNode]; omega
  cases t <;> first | (rw [J.hunm.eq_def]; simp only [this]; rfl) | simp [Ty.isStructOrMap] at h

/-- The session after a dictionary with id has been read into the variable `p`. -/
def noted (s : UH) (id : Int) (p : Loc × Ty) : UH := if 0 < id then s.note id ⟨some p, []⟩ else s

theorem noted_mem (s : UH) (id : Int) (p : Loc × Ty) : (noted s id p).mem = s.mem := by unfold noted; split <;> rfl

theorem saveNode_new {s : UH} {id : Int} (h : 0 < id → s.sess id = none) (p : Loc × Ty) : s.saveNode id p = some (noted s id p) := by
  unfold UH.saveNode noted UH.save
  split
  · rw [h ‹_›]
  · rfl

theorem saveNode_known {s : UH} {id : Int} {q p : Loc × Ty} : (noted s id q).saveNode id p = some (noted s id p) := by
  unfold UH.saveNode noted UH.save
  split
  · simp only [UH.note, if_true, UH.setAll]
    congr 2
    funext i
    split <;> rfl
  · rfl

theorem allocated_noted (P : UEnv) (t : Ty) (l : Loc) (s : UH) (id : Int) (p : Loc × Ty) :
    allocated P t l (noted s id p) = noted (allocated P t l s) id p := by
  unfold noted; split <;> rfl

theorem hunm_dict_ptr (P : UEnv) (id : Int) (kvs : List (Bytes × J)) {t : Ty} (h : t.isStructOrMap = true) (l : Loc) (s : UH) (hz : s.get l = some (P.hzero (.ptr t)))
    (hid : 0 < id → s.sess id = none) :
    (J.dict id kvs).hunm P (.ptr t) l s = hdict id kvs (fun t l s => J.hunmm P kvs t l s) (fun n l s => J.hunmf P kvs n l s) t ⟨s.mem.length, []⟩
      (noted (allocated P t l s) id (⟨s.mem.length, []⟩, t)) := by
  have hz' : (noted s id (l, .ptr t)).get l = some (P.hzero (.ptr t)) := by
    rw [← hz]; unfold UH.get; rw [noted_mem]
  rw [J.hunm, saveNode_new hid]
  simp only
  rw [halloc_ptr P t l _ hz', halloc_dict P h]
  have e : (⟨memSet (noted s id (l, .ptr t)).mem l (.ptr ⟨(noted s id (l, .ptr t)).mem.length, []⟩) ++ [P.hzero t], (noted s id (l, .ptr t)).sess⟩ : UH) =
      allocated P t l (noted s id (l, .ptr t)) := rfl
  rw [e]
  rw [allocated_get_ptr P t hz']
  simp only [h, if_true]
  rw [allocated_noted, saveNode_known, noted_mem]

theorem hsetKey_one {idx : Bytes → List Nat} {tys : List (FInfo × Ty)} {l : Loc} {assign : Ty → Loc → UH → HRes} {f : Nat} {k : Bytes} {s s' : UH}
    {i : Nat} {info : FInfo} {t : Ty} (hi : idx k = [i]) (ht : tys[i]? = some (info, t)) (hd : info.deprecatedBy = none)
    (ha : assign t (l.sub i) s = some (s', none)) : hsetKey idx tys l assign (f + 1) k [] s = some (s', [k], none) := by
  simp [hsetKey, hi, hsetLoop, ht, hd, ha]

theorem smAdd_last {α : Type} (m : SMap α) (k : Bytes) (v : α) (h : ∀ p ∈ m, blt p.1 k = true) : smAdd m k v = m ++ [(k, v)] := by
  induction m with
  | nil => rfl
  | cons p m ih =>
    obtain ⟨k', v'⟩ := p
    simp only [smAdd, h (k', v') (List.mem_cons_self ..), if_true, List.cons_append]
    rw [ih fun q hq => h q (List.mem_cons_of_mem _ hq)]

section
variable {P : UEnv} {τ : Int → Ty}

theorem Pre.of_sess {evs : List NodeEv} {s s' : UH} (h : Pre τ evs s) (e : s'.sess = s.sess) : Pre τ evs s' := by
  obtain ⟨h1, h2, h3⟩ := h
  exact ⟨by unfold Known Pend at *; rw [e]; exact h1, by unfold Known at *; rw [e]; exact h2, h3⟩

theorem Step.of_sess_left {evs : List NodeEv} {s s' s'' : UH} (h : Step τ evs s' s'') (e : s'.sess = s.sess) : Step τ evs s s'' := by
  obtain ⟨h1, h2, h3, h4⟩ := h
  exact ⟨by unfold Known at *; rw [← e]; exact h1, h2, by rw [← e]; exact h3, by unfold Known at *; rw [← e]; exact h4⟩

theorem step_wait {s s' : UH} {id : Int} (h1 : Pend τ s' id) (h2 : ∀ i, i ≠ id → s'.sess i = s.sess i) (h3 : ¬ Known τ s id) : Step τ [.use id] s s' := by
  refine ⟨fun i hk => h2 i ?_, fun i hi => by simp at hi, fun i _ hu => h2 i ?_, fun i _ _ hu => ?_⟩
  · rintro rfl; exact h3 hk
  · rintro rfl; exact hu (List.mem_singleton.2 rfl)
  · have : i = id := by simpa using hu
    subst this
    exact h1

theorem arr_done {xs : List J} {e : Ty} (hseq : e.isSeq = true)
    (hbody : ∀ l (s : UH), s.get l = some (P.hzero e) → Pre τ (J.eventss xs) s → Good (J.eventss xs) s → ∃ c new f,
      harr P xs (fun t l s => J.hunms P xs t l 0 s) e l s = some (⟨memSet s.mem l c ++ new, f⟩, none) ∧
      ArrBody P (s.mem.length ≤ ·) (memSet s.mem l c ++ new) (UH.where ⟨memSet s.mem l c ++ new, f⟩) xs e c ∧
      Step τ (J.eventss xs) s ⟨memSet s.mem l c ++ new, f⟩)
    {t : Ty} (ht : t = e ∨ t = .ptr e) {l : Loc} {s : UH} (hz : s.get l = some (P.hzero t)) (hp : Pre τ (J.eventss xs) s) (hgd : Good (J.eventss xs) s) :
    Done P τ (.arr xs) t l s := by
  rcases ht with rfl | rfl
  · obtain ⟨c, new, f, h1, h2, h3⟩ := hbody l s hz hp hgd
    exact ⟨c, new, f, by rw [hunm_arr P xs hseq, h1], ⟨_, _, none, .here (seq_nonptr hseq), h2⟩, h3⟩
  · obtain ⟨c, new, f, h1, h2, h3⟩ := hbody ⟨s.mem.length, []⟩ (allocated P e l s) (allocated_get ..) (hp.of_sess rfl) hgd
    rw [allocated_set] at h1 h2 h3
    refine ⟨.ptr ⟨s.mem.length, []⟩, c :: new, f, by rw [hunm_arr_ptr P xs hseq l s hz, h1],
      ⟨e, c, _, thru_allocated (P := P) (seq_nonptr hseq) .., h2.mono ?_ (fun _ _ _ => rfl) (fun _ _ => rfl)⟩, h3.of_sess_left rfl⟩
    intro b hb
    rw [allocated_length] at hb
    omega

theorem step_noted {id : Int} {s s1 : UH} {p : Loc} {t : Ty} (hn : 0 < id → s.sess id = none)
    (hs : s1.sess = s.sess) (ht : 0 < id → τ id = t) : Step τ (if 0 < id then [.defn id] else []) s (noted s1 id (p, t)) := by
  by_cases hi : 0 < id
  · simp only [hi, if_true, noted]
    constructor
    · intro i ⟨q, hq⟩
      have : i ≠ id := by rintro rfl; rw [hn hi] at hq; cases hq
      simp only [UH.note, this, if_false, hs]
    · intro i hm
      have : i = id := by simpa using hm
      subst this
      exact ⟨p, by simp only [UH.note, if_true, ht hi]⟩
    · intro i hd _
      have : i ≠ id := by rintro rfl; exact hd (List.mem_singleton.2 rfl)
      simp only [UH.note, this, if_false, hs]
    · intro i _ _ hu
      simp at hu
  · simp only [hi, if_false, noted]
    exact Step.of_sess hs

theorem dict_done {id : Int} {kvs : List (Bytes × J)} {e : Ty} (hd : e.isStructOrMap = true) (hτ : 0 < id → τ id = e)
    (hbody : ∀ l (s : UH), s.get l = some (P.hzero e) → Pre τ (J.eventsf kvs) s → Good (J.eventsf kvs) s → ∃ c new f,
      hdict id kvs (fun t l s => J.hunmm P kvs t l s) (fun n l s => J.hunmf P kvs n l s) e l s = some (⟨memSet s.mem l c ++ new, f⟩, none) ∧
      DictBody P (s.mem.length ≤ ·) (memSet s.mem l c ++ new) (UH.where ⟨memSet s.mem l c ++ new, f⟩) kvs e c ∧
      Step τ (J.eventsf kvs) s ⟨memSet s.mem l c ++ new, f⟩)
    {t : Ty} (ht : (t = e ∧ id ≤ 0) ∨ t = .ptr e) {l : Loc} {s : UH} (hz : s.get l = some (P.hzero t)) (hp : Pre τ (J.dict id kvs).events s) (hgd : Good (J.dict id kvs).events s) :
    Done P τ (.dict id kvs) t l s := by
  rw [J.events] at hp hgd
  rcases ht with ⟨rfl, hid⟩ | rfl
  · have hid' : ¬ 0 < id := by omega
    simp only [hid', if_false, List.nil_append] at hp hgd
    obtain ⟨c, new, f, h1, h2, h3⟩ := hbody l s hz hp hgd
    refine ⟨c, new, f, by rw [hunm_dict P id kvs hd l s hid, h1], ⟨_, _, none, .here (dict_nonptr hd), fun h => absurd h hid', h2⟩, ?_⟩
    simp only [J.events, hid', if_false, List.nil_append]
    exact h3
  · have hnew : 0 < id → s.sess id = none := fun hi => (hgd [] id (J.eventsf kvs) (by simp [hi])).1
    have hst : Step τ (if 0 < id then [.defn id] else []) s (noted (allocated P e l s) id (⟨s.mem.length, []⟩, e)) :=
      step_noted hnew rfl hτ
    have hg : (noted (allocated P e l s) id (⟨s.mem.length, []⟩, e)).get ⟨s.mem.length, []⟩ = some (P.hzero e) := by
      unfold UH.get; rw [noted_mem]; exact allocated_get P e l s
    obtain ⟨c, new, f, h1, h2, h3⟩ := hbody ⟨s.mem.length, []⟩ _ hg (hp.right hst) (hgd.right hp hst)
    rw [noted_mem, allocated_set] at h1 h2 h3
    have hall := hst.append h3
    refine ⟨.ptr ⟨s.mem.length, []⟩, c :: new, f, by rw [hunm_dict_ptr P id kvs hd l s hz hnew, h1],
      ⟨e, c, _, thru_allocated (P := P) (dict_nonptr hd) .., ?_, h2.mono ?_ (fun _ _ _ => rfl) (fun _ _ => rfl)⟩, hall⟩
    · intro hi
      refine ⟨rfl, ?_⟩
      have hk : Known τ (noted (allocated P e l s) id (⟨s.mem.length, []⟩, e)) id := hst.got id (by simp [hi])
      have := h3.keep id hk
      simp only [noted, hi, if_true, UH.note] at this
      simp only [UH.where]
      rw [this]
    · intro b hb
      rw [allocated_length] at hb
      omega

theorem tail_agree {A B new : List HV} (h : A.length = B.length) (r : List HV) {b : Nat} (hb : A.length ≤ b) (hlt : b < (A ++ new).length) :
    (B ++ (new ++ r))[b]? = (A ++ new)[b]? := by
  rw [List.length_append] at hlt
  rw [List.getElem?_append_right (by omega), List.getElem?_append_right hb, ← h, List.getElem?_append_left (by omega)]

theorem get_new1 (s : UH) (A : List HV) (hA : A.length = s.mem.length) (o : HV) : UH.get ⟨A ++ [o], s.sess⟩ ⟨s.mem.length, []⟩ = some o := by
  have := memGet_new A o [] []
  rw [hA] at this
  exact this

theorem set_new1 {A : List HV} {n : Nat} (hA : A.length = n) {o c : HV} {new : List HV} : memSet (A ++ [o]) ⟨n, []⟩ c ++ new = A ++ (c :: new) := by
  subst hA
  rw [memSet_new A o [] [] c]; simp [HV.put]

theorem map_apart {s : UH} {l : Loc} {b : Nat} {m : List (Bytes × HV)} (hl : s.get l = some (.map b)) (hb : s.mem[b]? = some (.mapObj m)) : l.base ≠ b := by
  intro e
  simp only [UH.get, memGet] at hl
  rw [e, hb] at hl
  simp only at hl
  cases hpath : l.path with
  | nil => rw [hpath] at hl; simp [HV.at] at hl
  | cons i p => rw [hpath] at hl; simp [HV.at, HV.child] at hl

theorem setMapIndex_step {s : UH} {l : Loc} {b : Nat} {m m' : List (Bytes × HV)} (hl : s.get l = some (.map b)) (hb : s.mem[b]? = some (.mapObj m)) {c : HV} {new : List HV}
    {f : Int → Option HNode} {k : Bytes} (hsm : smAdd m k c = m') :
    UH.setMapIndex ⟨s.mem ++ (c :: new), f⟩ l k ⟨s.mem.length, []⟩ = some ⟨s.mem.set b (.mapObj m') ++ (c :: new), f⟩ := by
  have hll := memGet_lt hl
  have hbl := lt_of_get hb
  have g1 : UH.get ⟨s.mem ++ (c :: new), f⟩ l = some (.map b) := by
    simp only [UH.get]; rw [memGet_append hll]; exact hl
  have g2 : UH.get ⟨s.mem ++ (c :: new), f⟩ ⟨s.mem.length, []⟩ = some c := memGet_new s.mem c new []
  have g3 : (s.mem ++ (c :: new))[b]? = some (.mapObj m) := by rw [List.getElem?_append_left hbl, hb]
  simp only [UH.setMapIndex, g1, g2, g3, hsm]
  rw [List.set_append_left _ _ hbl]

theorem harr_slice_zero {P : UEnv} (xs : List J) (elems : Ty → Loc → UH → HRes) (t : Ty) {l : Loc} {s : UH} (hz : s.get l = some (P.hzero (.slice t))) :
    harr P xs elems (.slice t) l s =
      elems t ⟨s.mem.length, []⟩ ⟨memSet s.mem l (.seq s.mem.length xs.length) ++ [.arr (List.replicate xs.length (P.hzero t))], s.sess⟩ := by
  have hl := memGet_lt hz
  simp only [harr, UEnv.hresize, hz, hzero_slice, UH.new, UH.set]
  rw [memSet_append hl]

theorem makeMap_zero {P : UEnv} (t : Ty) {l : Loc} {s : UH} (hz : s.get l = some (P.hzero (.map t))) :
    s.makeMap l = ⟨memSet s.mem l (.map s.mem.length) ++ [.mapObj []], s.sess⟩ := by
  have hl := memGet_lt hz
  simp only [UH.makeMap, hz, hzero_map, UH.new, UH.set]
  rw [memSet_append hl]

mutual
theorem hunm_done (hw : P.defs.Wf) : ∀ (j : J) (t : Ty) (l : Loc) (s : UH), j.Fits P τ t → s.get l = some (P.hzero t) → Pre τ j.events s → Good j.events s → Done P τ j t l s
  | .null, t, l, s, _, hz, _, _ => by
    refine ⟨P.hzero t, [], s.sess, ?_, rfl, Step.of_sess rfl⟩
    rw [J.hunm, List.append_nil]; rfl
  | .ptr id, t, l, s, hf, hz, hp, _ => by
    obtain ⟨ht, hsm⟩ := hf
    have hev : (J.ptr id).events = [.use id] := by simp [J.events]
    rcases hp.known id with hn | ⟨p, hn⟩ | ⟨ts, hn, hne, hts⟩
    · refine ⟨P.hzero t, [], (s.note id ⟨none, [(l, t)]⟩).sess, ?_, ?_, ?_⟩
      · rw [J.hunm, List.append_nil, memSet_self hz]
        simp only [UH.refer, hn, Option.map_some]; rfl
      · simp only [J.Holds, UH.where, UH.note, if_true]
      · rw [hev]
        exact step_wait ⟨[(l, t)], by simp [UH.note], by simp, by simp [ht]⟩ (fun i hi => by simp [UH.note, hi]) (fun ⟨p, hk⟩ => by rw [hn] at hk; cases hk)
    · refine ⟨.ptr p, [], s.sess, ?_, ?_, ?_⟩
      · rw [J.hunm, List.append_nil]
        have ha : assignable (τ id) t = true := by
          subst ht
          cases he : τ id <;> simp [he, Ty.isStructOrMap] at hsm <;> simp [assignable, Ty.ptrTo]
        simp only [UH.refer, hn, UH.setPtr, ha, if_true, Option.map_some, UH.set]
      · simp only [J.Holds, UH.where, hn]
      · rw [hev]
        refine ⟨fun _ _ => rfl, fun i hi => by simp at hi, fun _ _ _ => rfl, fun i _ hk hu => ?_⟩
        have : i = id := by simpa using hu
        subst this
        exact absurd ⟨p, hn⟩ hk
    · refine ⟨P.hzero t, [], (s.note id ⟨none, ts ++ [(l, t)]⟩).sess, ?_, ?_, ?_⟩
      · rw [J.hunm, List.append_nil, memSet_self hz]
        simp only [UH.refer, hn, Option.map_some]; rfl
      · simp only [J.Holds, UH.where, UH.note, if_true]
      · rw [hev]
        refine step_wait ⟨ts ++ [(l, t)], by simp [UH.note], by simp, ?_⟩ (fun i hi => by simp [UH.note, hi]) (fun ⟨p, hk⟩ => by rw [hn] at hk; simp at hk)
        intro v hv
        rcases List.mem_append.1 hv with hv | hv
        · exact hts v hv
        · rw [List.mem_singleton.1 hv]; exact ht
  | .bool b, t, l, s, hf, hz, _, _ => scalarJ_done (j := .bool b) (f := unmBool b) (fun _ _ => by rw [J.unm]) (fun _ _ _ _ => by rw [J.hunm]) rfl (fun _ _ _ _ _ h => h) hf hz
  | .int n, t, l, s, hf, hz, _, _ => scalarJ_done (j := .int n) (f := unmInt n) (fun _ _ => by rw [J.unm]) (fun _ _ _ _ => by rw [J.hunm]) rfl (fun _ _ _ _ _ h => h) hf hz
  | .float x bit, t, l, s, hf, hz, _, _ =>
    scalarJ_done (j := .float x bit) (f := unmFloat P x bit) (fun _ _ => by rw [J.unm]) (fun _ _ _ _ => by rw [J.hunm]) rfl (fun _ _ _ _ _ h => h) hf hz
  | .str x, t, l, s, hf, hz, _, _ =>
    scalarJ_done (j := .str x) (f := unmStr P x) (fun _ _ => by rw [J.unm]) (fun _ _ _ ht => by rw [J.hunm, hstr_scalar P x _ _ _ ht]) rfl (fun _ _ _ _ _ h => h) hf hz
  | .arr xs, t, l, s, hf, hz, hp, hgd => by
    obtain ⟨e, ht, hf⟩ := hf
    cases e with
    | slice t' =>
      refine arr_done rfl ?_ ht hz hp hgd
      intro l s hz hp hgd
      rw [harr_slice_zero xs _ t' hz]
      have hg := get_new1 s (memSet s.mem l (.seq s.mem.length xs.length)) (memSet_length ..) (.arr (List.replicate xs.length (P.hzero t')))
      obtain ⟨cs, new, f, h1, h2, h3⟩ := hunms_done hw xs t' ⟨s.mem.length, []⟩ 0 ⟨memSet s.mem l (.seq s.mem.length xs.length) ++ [.arr (List.replicate xs.length (P.hzero t'))], s.sess⟩ []
        hf hg rfl (hp.of_sess rfl) hgd
      simp only [List.nil_append] at h1 h2 h3
      rw [set_new1 (memSet_length ..)] at h1 h2 h3
      refine ⟨.seq s.mem.length xs.length, .arr cs :: new, f, h1, Or.inl ⟨t', _, cs, rfl, rfl, Nat.le_refl _, ?_, ?_⟩, h3.of_sess_left rfl⟩
      · rw [List.getElem?_append_right (Nat.le_of_eq (memSet_length ..))]
        simp [memSet_length]
      · refine holdss_mono ?_ (fun _ _ _ => rfl) _ _ _ (fun _ _ => rfl) h2
        intro b hb
        simp [memSet_length] at hb
        omega
    | array n t' =>
      obtain ⟨hn, hf⟩ := hf
      refine arr_done rfl ?_ ht hz hp hgd
      intro l s hz hp hgd
      rw [hzero_array, hn] at hz
      obtain ⟨cs, new, f, h1, h2, h3⟩ := hunms_done hw xs t' l 0 s [] hf hz rfl hp hgd
      simp only [List.nil_append] at h1 h2 h3
      refine ⟨.arr cs, new, f, ?_, Or.inr ⟨n, t', cs, rfl, rfl, h2⟩, h3⟩
      simp only [harr, hn, ne_eq, not_true_eq_false, if_false]
      exact h1
    | _ => exact (show False from hf).elim
  | .dict id kvs, t, l, s, hf, hz, hp, hgd => by
    obtain ⟨e, ht, hτ, hf⟩ := hf
    cases e with
    | struct n =>
      obtain ⟨fs, hn, hf, hpw⟩ := hf
      refine dict_done rfl hτ ?_ ht hz hp hgd
      intro l s hz hp hgd
      rw [hzero_struct hw hn] at hz
      obtain ⟨vs, new, f, h1, h2, h3, h4, h5⟩ := hunmf_done hw hn kvs l s _ hf hpw hz (by simp) (by
        intro i info ti hi _
        simp [hi]) hp hgd
      refine ⟨.struct vs, new, f, ?_, Or.inl ⟨n, fs, vs, rfl, hn, rfl, h2, h3, ?_⟩, h5⟩
      · simp only [hdict, h1, List.isEmpty_nil, if_true]
      · intro i info ti hi hno
        rw [h4 i hno]
        simp [hi]
    | map t' =>
      obtain ⟨hs, hf⟩ := hf
      refine dict_done rfl hτ ?_ ht hz hp hgd
      intro l s hz hp hgd
      have hl := memGet_lt hz
      simp only [hdict]
      rw [makeMap_zero t' hz]
      have hg1 : UH.get ⟨memSet s.mem l (.map s.mem.length) ++ [.mapObj []], s.sess⟩ l = some (.map s.mem.length) := by
        simp only [UH.get]
        rw [memGet_append (by rw [memSet_length]; exact hl)]
        exact memGet_set hz _
      obtain ⟨m, new, f, h1, h2, h3⟩ := hunmm_done hw kvs t' l ⟨memSet s.mem l (.map s.mem.length) ++ [.mapObj []], s.sess⟩ s.mem.length [] hf hs
        (by intro p hp; cases hp) hg1 (by rw [List.getElem?_append_right (Nat.le_of_eq (memSet_length ..))]; simp [memSet_length]) (hp.of_sess rfl) hgd
      simp only [List.nil_append] at h1 h2 h3
      have e1 : ((memSet s.mem l (.map s.mem.length) ++ [HV.mapObj []]).set s.mem.length (.mapObj m) ++ new : List HV) =
          memSet s.mem l (.map s.mem.length) ++ (.mapObj m :: new) := by
        rw [List.set_append_right _ _ (Nat.le_of_eq (memSet_length ..))]
        simp [memSet_length]
      rw [e1] at h1 h2 h3
      refine ⟨.map s.mem.length, .mapObj m :: new, f, h1, Or.inr ⟨t', _, m, rfl, rfl, Nat.le_refl _, ?_, ?_⟩, h3.of_sess_left rfl⟩
      · rw [List.getElem?_append_right (Nat.le_of_eq (memSet_length ..))]
        simp [memSet_length]
      · refine holdsm_mono ?_ (fun _ _ _ => rfl) _ _ _ (fun _ _ => rfl) h2
        intro b hb
        simp [memSet_length] at hb
        omega
    | _ => exact (show False from hf).elim
theorem hunms_done (hw : P.defs.Wf) : ∀ (xs : List J) (t : Ty) (l : Loc) (i : Nat) (s : UH) (done : List HV), J.Fitss P τ xs t →
    s.get l = some (.arr (done ++ List.replicate xs.length (P.hzero t))) → done.length = i → Pre τ (J.eventss xs) s → Good (J.eventss xs) s →
    ∃ cs new f, J.hunms P xs t l i s = some (⟨memSet s.mem l (.arr (done ++ cs)) ++ new, f⟩, none) ∧
      J.Holdss P (s.mem.length ≤ ·) (memSet s.mem l (.arr (done ++ cs)) ++ new) (UH.where ⟨memSet s.mem l (.arr (done ++ cs)) ++ new, f⟩) xs t cs ∧
      Step τ (J.eventss xs) s ⟨memSet s.mem l (.arr (done ++ cs)) ++ new, f⟩
  | [], t, l, i, s, done, _, hg, _, _, _ => by
    refine ⟨[], [], s.sess, ?_, rfl, Step.of_sess rfl⟩
    have : memSet s.mem l (.arr (done ++ [])) = s.mem := by
      simp only [List.length_nil, List.replicate_zero] at hg
      exact memSet_self hg
    rw [J.hunms, this, List.append_nil]
  | x :: xs, t, l, i, s, done, hf, hg, hi, hp, hgd => by
    obtain ⟨hf1, hf2⟩ := hf
    have hl := memGet_lt hg
    rw [J.eventss] at hp hgd
    have hc : (HV.arr (done ++ List.replicate (x :: xs).length (P.hzero t))).child i = some (P.hzero t) := by
      simp [HV.child, ← hi, List.replicate_succ]
    have hgi : s.get (l.sub i) = some (P.hzero t) := by
      rw [← hc]; exact memGet_sub hg i
    obtain ⟨c, new, f, h1, h2, h3⟩ := hunm_done hw x t (l.sub i) s hf1 hgi hp.left hgd.left
    have hset : (HV.arr (done ++ List.replicate (x :: xs).length (P.hzero t))).setChild i c = .arr ((done ++ [c]) ++ List.replicate xs.length (P.hzero t)) := by
      simp [HV.setChild, ← hi, List.replicate_succ, List.set_append]
    rw [memSet_sub hg hc, hset] at h1 h2 h3
    have hg1 : UH.get ⟨memSet s.mem l (.arr ((done ++ [c]) ++ List.replicate xs.length (P.hzero t))) ++ new, f⟩ l =
        some (.arr ((done ++ [c]) ++ List.replicate xs.length (P.hzero t))) := by
      simp only [UH.get]
      rw [memGet_append (by rw [memSet_length]; exact hl)]
      exact memGet_set hg _
    obtain ⟨cs, new2, f2, k1, k2, k3⟩ := hunms_done hw xs t l (i + 1) _ (done ++ [c]) hf2 hg1 (by simp [hi]) (hp.right h3) (hgd.right hp h3)
    have e1 : memSet (memSet s.mem l (.arr ((done ++ [c]) ++ List.replicate xs.length (P.hzero t))) ++ new) l (.arr ((done ++ [c]) ++ cs)) ++ new2 =
        memSet s.mem l (.arr (done ++ c :: cs)) ++ (new ++ new2) := by
      rw [memSet_append (by rw [memSet_length]; exact hl), memSet_set hg, List.append_assoc]
      simp
    have hw3 := Step.where hgd h3 k3
    simp only at k1 k2 k3 hw3
    rw [e1] at k1 k2 k3 hw3
    refine ⟨c :: cs, new ++ new2, f2, ?_, ⟨c, cs, rfl, ?_, ?_⟩, ?_⟩
    · rw [J.hunms, h1]; exact k1
    · refine holds_mono (fun _ h => h) ?_ x t c hw3 h2
      intro b hb hlt
      exact tail_agree (by simp only [memSet_length]) _ (by rw [memSet_length]; exact hb) hlt
    · refine holdss_mono ?_ (fun _ _ _ => rfl) xs t cs (fun _ _ => rfl) k2
      intro b hb
      simp [memSet_length] at hb
      omega
    · rw [J.eventss]; exact h3.append k3
theorem hunmm_done (hw : P.defs.Wf) : ∀ (kvs : List (Bytes × J)) (t : Ty) (l : Loc) (s : UH) (b : Nat) (m : List (Bytes × HV)), J.Fitsm P τ kvs t →
    SMap.Sorted kvs → (∀ p ∈ m, ∀ q ∈ kvs, blt p.1 q.1 = true) → s.get l = some (.map b) → s.mem[b]? = some (.mapObj m) → Pre τ (J.eventsf kvs) s → Good (J.eventsf kvs) s →
    ∃ m' new f, J.hunmm P kvs t l s = some (⟨s.mem.set b (.mapObj (m ++ m')) ++ new, f⟩, none) ∧
      J.Holdsm P (s.mem.length ≤ ·) (s.mem.set b (.mapObj (m ++ m')) ++ new) (UH.where ⟨s.mem.set b (.mapObj (m ++ m')) ++ new, f⟩) kvs t m' ∧
      Step τ (J.eventsf kvs) s ⟨s.mem.set b (.mapObj (m ++ m')) ++ new, f⟩
  | [], t, l, s, b, m, _, _, _, _, hb, _, _ => by
    refine ⟨[], [], s.sess, ?_, rfl, Step.of_sess rfl⟩
    have : s.mem.set b (.mapObj (m ++ [])) = s.mem := by
      rw [List.append_nil]
      obtain ⟨hi, e⟩ := List.getElem?_eq_some_iff.1 hb
      rw [← e]
      exact List.set_getElem_self hi
    rw [J.hunmm, this, List.append_nil]
  | (k, x) :: kvs, t, l, s, b, m, hf, hs, hm, hl, hb, hp, hgd => by
    obtain ⟨hf1, hf2⟩ := hf
    have hll := memGet_lt hl
    have hbl := lt_of_get hb
    have hne := map_apart hl hb
    rw [J.eventsf] at hp hgd
    have hg : UH.get ⟨s.mem ++ [P.hzero t], s.sess⟩ ⟨s.mem.length, []⟩ = some (P.hzero t) := memGet_new s.mem (P.hzero t) [] []
    obtain ⟨c, new, f, h1, h2, h3⟩ := hunm_done hw x t ⟨s.mem.length, []⟩ ⟨s.mem ++ [P.hzero t], s.sess⟩ hf1 hg (hp.left.of_sess rfl) hgd.left
    have e1 : memSet (s.mem ++ [P.hzero t]) ⟨s.mem.length, []⟩ c ++ new = s.mem ++ (c :: new) := by
      rw [memSet_new s.mem (P.hzero t) [] [] c]; simp [HV.put]
    simp only at h1 h2 h3
    rw [e1] at h1 h2 h3
    have h3 := h3.of_sess_left (s := s) rfl
    have hsm : smAdd m k c = m ++ [(k, c)] := smAdd_last m k c fun p hp => hm p hp (k, x) (List.mem_cons_self ..)
    have e2 := setMapIndex_step (f := f) (new := new) hl hb hsm
    have hs3 : Step τ x.events s ⟨s.mem.set b (.mapObj (m ++ [(k, c)])) ++ (c :: new), f⟩ := ⟨h3.keep, h3.got, h3.same, h3.pend⟩
    have hl3 : UH.get ⟨s.mem.set b (.mapObj (m ++ [(k, c)])) ++ (c :: new), f⟩ l = some (.map b) := by
      simp only [UH.get]
      rw [memGet_append (by rw [List.length_set]; exact hll), ← hl]
      exact memGet_congr (List.getElem?_set_ne fun h => hne h.symm)
    have hb3 : (s.mem.set b (.mapObj (m ++ [(k, c)])) ++ (c :: new))[b]? = some (.mapObj (m ++ [(k, c)])) := by
      rw [List.getElem?_append_left (by rw [List.length_set]; exact hbl), List.getElem?_set_self hbl]
    have hs' := sorted_cons.1 hs
    obtain ⟨m', new2, f2, k1, k2, k3⟩ := hunmm_done hw kvs t l ⟨s.mem.set b (.mapObj (m ++ [(k, c)])) ++ (c :: new), f⟩ b (m ++ [(k, c)]) hf2 hs'.2 (by
      intro p hp q hq
      rcases List.mem_append.1 hp with hp | hp
      · exact hm p hp q (List.mem_cons_of_mem _ hq)
      · rw [List.mem_singleton.1 hp]; exact hs'.1 q hq) hl3 hb3 (hp.right hs3) (hgd.right hp hs3)
    have e3 : (s.mem.set b (.mapObj (m ++ [(k, c)])) ++ (c :: new)).set b (.mapObj ((m ++ [(k, c)]) ++ m')) ++ new2 =
        s.mem.set b (.mapObj (m ++ (k, c) :: m')) ++ ((c :: new) ++ new2) := by
      rw [List.set_append_left _ _ (by rw [List.length_set]; exact hbl), List.set_set, List.append_assoc]
      simp
    have hw3 := Step.where hgd hs3 k3
    simp only at k1 k2 k3 hw3
    rw [e3] at k1 k2 k3 hw3
    refine ⟨(k, c) :: m', (c :: new) ++ new2, f2, ?_, ⟨c, m', rfl, ?_, ?_⟩, ?_⟩
    · rw [J.hunmm]
      simp only [UH.new, h1, e2]
      exact k1
    · refine holds_mono (F := ((s.mem ++ [P.hzero t]).length ≤ ·)) ?_ ?_ x t c hw3 h2
      · intro d hd; simp at hd; omega
      · intro d hd hlt
        exact tail_agree (by simp) _ (by simp at hd; omega) hlt
    · refine holdsm_mono ?_ (fun _ _ _ => rfl) kvs t m' (fun _ _ => rfl) k2
      intro d hd
      simp at hd
      omega
    · rw [J.eventsf]; exact hs3.append k3
theorem hunmf_done (hw : P.defs.Wf) {n : Nat} {fs : List (FInfo × Ty)} (hn : P.defs[n]? = some fs) : ∀ (kvs : List (Bytes × J)) (l : Loc) (s : UH) (vs : List HV),
    J.Fitsf P τ kvs n fs → kvs.Pairwise (fun p q => P.idx n p.1 ≠ P.idx n q.1) → s.get l = some (.struct vs) → vs.length = fs.length →
    (∀ i info ti, fs[i]? = some (info, ti) → (∃ p ∈ kvs, P.idx n p.1 = [i]) → vs[i]? = some (P.hzero ti)) → Pre τ (J.eventsf kvs) s → Good (J.eventsf kvs) s →
    ∃ vs' new f, J.hunmf P kvs n l s = some (⟨memSet s.mem l (.struct vs') ++ new, f⟩, []) ∧ vs'.length = fs.length ∧
      J.Holdsf P (s.mem.length ≤ ·) (memSet s.mem l (.struct vs') ++ new) (UH.where ⟨memSet s.mem l (.struct vs') ++ new, f⟩) kvs n fs vs' ∧
      (∀ i, (∀ p ∈ kvs, P.idx n p.1 ≠ [i]) → vs'[i]? = vs[i]?) ∧
      Step τ (J.eventsf kvs) s ⟨memSet s.mem l (.struct vs') ++ new, f⟩
  | [], l, s, vs, _, _, hg, hlen, _, _, _ => by
    refine ⟨vs, [], s.sess, ?_, hlen, trivial, fun _ _ => rfl, Step.of_sess rfl⟩
    rw [J.hunmf, memSet_self hg, List.append_nil]
  | (k, x) :: kvs, l, s, vs, hf, hpw, hg, hlen, hz, hp, hgd => by
    obtain ⟨⟨i, info, t, hi, ht, hd, hf1⟩, hf2⟩ := hf
    have hl := memGet_lt hg
    rw [J.eventsf] at hp hgd
    have hvi := hz i info t ht ⟨(k, x), List.mem_cons_self .., hi⟩
    have hgi : s.get (l.sub i) = some (P.hzero t) := by
      have := memGet_sub hg i
      rw [UH.get, this]; exact hvi
    obtain ⟨c, new, f, h1, h2, h3⟩ := hunm_done hw x t (l.sub i) s hf1 hgi hp.left hgd.left
    have hset : (HV.struct vs).setChild i c = .struct (vs.set i c) := rfl
    rw [memSet_sub hg (i := i) hvi, hset] at h1 h2 h3
    have hg1 : UH.get ⟨memSet s.mem l (.struct (vs.set i c)) ++ new, f⟩ l = some (.struct (vs.set i c)) := by
      simp only [UH.get]
      rw [memGet_append (by rw [memSet_length]; exact hl)]
      exact memGet_set hg _
    have hpw' := List.pairwise_cons.1 hpw
    have hothers : ∀ p ∈ kvs, P.idx n p.1 ≠ [i] := fun p hp => by rw [← hi]; exact (hpw'.1 p hp).symm
    obtain ⟨vs', new2, f2, k1, k2, k3, k4, k5⟩ := hunmf_done hw hn kvs l _ (vs.set i c) hf2 hpw'.2 hg1 (by simp [hlen]) (by
      intro i' info' t' ht' hex
      have : i ≠ i' := by
        rintro rfl
        obtain ⟨p, hp, hpi⟩ := hex
        exact hothers p hp hpi
      rw [List.getElem?_set_ne this]
      obtain ⟨p, hp, hpi⟩ := hex
      exact hz i' info' t' ht' ⟨p, List.mem_cons_of_mem _ hp, hpi⟩) (hp.right h3) (hgd.right hp h3)
    have hil : i < vs.length := (List.getElem?_eq_some_iff.1 hvi).1
    have hvc : vs'[i]? = some c := by
      rw [k4 i hothers, List.getElem?_set_self hil]
    have e1 : memSet (memSet s.mem l (.struct (vs.set i c)) ++ new) l (.struct vs') ++ new2 = memSet s.mem l (.struct vs') ++ (new ++ new2) := by
      rw [memSet_append (by rw [memSet_length]; exact hl), memSet_set hg, List.append_assoc]
    have hw3 := Step.where hgd h3 k5
    simp only at k1 k3 k5 hw3
    rw [e1] at k1 k3 k5 hw3
    refine ⟨vs', new ++ new2, f2, ?_, k2, ⟨⟨i, info, t, c, hi, ht, hvc, ?_⟩, ?_⟩, ?_, ?_⟩
    · rw [J.hunmf]
      have hgf : P.defs.getD n [] = fs := by simp [List.getD, hn]
      rw [hgf, hsetKey_one hi ht hd h1]
      simp only
      rw [k1]
    · refine holds_mono (fun _ h => h) ?_ x t c hw3 h2
      intro b hb hlt
      exact tail_agree (by simp only [memSet_length]) _ (by rw [memSet_length]; exact hb) hlt
    · refine holdsf_mono ?_ (fun _ _ _ => rfl) kvs n fs vs' (fun _ _ => rfl) k3
      intro b hb
      simp [memSet_length] at hb
      omega
    · intro j hj
      rw [k4 j fun p hp => hj p (List.mem_cons_of_mem _ hp)]
      have : i ≠ j := by rintro rfl; exact hj (k, x) (List.mem_cons_self ..) hi
      exact List.getElem?_set_ne this
    · rw [J.eventsf]; exact h3.append k5
end
end

end Jsonutils
