import Verif.Spec.Session

/-! # Lemmas about the unmarshal session -/

namespace Jsonutils

theorem omGet_omSet (m : List (Int × NodeValues)) (i j : Int) (nv : NodeValues) :
    omGet (omSet m i nv) j = if i = j then some nv else omGet m j := by
  induction m with
  | nil => simp [omSet, omGet]
  | cons e r ih =>
    obtain ⟨k, v⟩ := e
    simp only [omSet]
    split
    · rename_i h; subst h
      simp only [omGet]
      split <;> simp_all
    · rename_i h
      simp only [omGet, ih]
      split
      · rename_i h'; subst h'; rw [if_neg (by simpa using fun e => h e.symm)]
      · rfl

/-- What the map holds for a node after a history. -/
def entryOf (id : Int) (hist : List UEv) : Option NodeValues :=
  match (savesOf id hist).getLast? with
  | some p => some ⟨some p, []⟩
  | none => if refersOf id hist = [] then none else some ⟨none, refersOf id hist⟩

theorem entryOf_snoc_other {id : Int} {hist : List UEv} {e : UEv}
    (h : match e with
      | .save i _ => i ≠ id
      | .refer i _ => i ≠ id) : entryOf id (hist ++ [e]) = entryOf id hist := by
  cases e <;> simp_all [entryOf, savesOf, refersOf]

theorem setTargets_spec (asg : Nat → Nat → Bool) (p : PVal) : ∀ (ts : List GoVar) (mem mem' : GoVar → Option PVal),
    setTargets asg p mem ts = some mem' → ∀ w, mem' w = if w ∈ ts then some p else mem w := by
  intro ts
  induction ts with
  | nil => intro mem mem' h w; simp [setTargets] at h; simp [h]
  | cons v vs ih =>
    intro mem mem' h w
    simp only [setTargets, reflectSet] at h
    split at h
    · cases h
    · rename_i m2 hm
      split at hm
      · cases hm
        rw [ih _ _ h w]
        by_cases h1 : w ∈ vs <;> by_cases h2 : w = v <;> simp_all
      · cases hm

theorem setTargets_isSome (asg : Nat → Nat → Bool) (p : PVal) : ∀ (ts : List GoVar) (mem : GoVar → Option PVal),
    (setTargets asg p mem ts).isSome = true ↔ ∀ v ∈ ts, asg p.ty v.ty = true := by
  intro ts
  induction ts with
  | nil => intro mem; simp [setTargets]
  | cons v vs ih =>
    intro mem
    simp only [setTargets, reflectSet]
    split
    · rename_i hm
      split at hm
      · cases hm
      · rename_i hv; simp [hv]
    · rename_i m2 hm
      split at hm
      · rename_i hv
        rw [ih]; simp [hv]
      · cases hm

/-- The invariant between a history and the session reached by it. -/
def Tracks (hist : List UEv) (s : USess) : Prop := ∀ id, omGet s.objectMap id = entryOf id hist

theorem tracks_init : Tracks [] USess.init := fun _ => rfl

theorem savesOf_append (id : Int) (a b : List UEv) : savesOf id (a ++ b) = savesOf id a ++ savesOf id b := by
  simp [savesOf]

theorem refersOf_append (id : Int) (a b : List UEv) : refersOf id (a ++ b) = refersOf id a ++ refersOf id b := by
  simp [refersOf]

theorem step_tracks {asg : Nat → Nat → Bool} {hist : List UEv} {s s' : USess} {e : UEv} (h : Tracks hist s)
    (hs : s.step asg e = some s') : Tracks (hist ++ [e]) s' := by
  intro id
  cases e with
  | save i p =>
    have hm : s'.objectMap = omSet s.objectMap i ⟨some p, []⟩ := by
      simp only [USess.step, USess.saveNodeValue] at hs
      split at hs
      · cases hs; rfl
      · split at hs
        · cases hs
        · cases hs; rfl
    rw [hm, omGet_omSet]
    split
    · rename_i hi; subst hi
      simp [entryOf, savesOf]
    · rename_i hi
      rw [entryOf_snoc_other (e := .save i p) hi, h id]
  | refer i v =>
    simp only [USess.step, USess.setPointerValue] at hs
    by_cases hi : i = id
    · subst hi
      rw [h i] at hs
      unfold entryOf at hs ⊢
      rw [savesOf_append, refersOf_append]
      have e1 : savesOf i [UEv.refer i v] = [] := by simp [savesOf]
      have e2 : refersOf i [UEv.refer i v] = [v] := by simp [refersOf]
      rw [e1, e2, List.append_nil]
      cases hl : (savesOf i hist).getLast? with
      | some p =>
        simp only [hl] at hs ⊢
        simp only [Option.map_eq_some_iff] at hs
        obtain ⟨mem, _, rfl⟩ := hs
        simp only [h i, entryOf, hl]
      | none =>
        simp only [hl] at hs ⊢
        by_cases hr : refersOf i hist = []
        · simp only [hr, if_true] at hs
          cases hs
          simp [omGet_omSet, hr]
        · simp only [hr, if_false] at hs
          cases hs
          simp [omGet_omSet]
    · rw [entryOf_snoc_other (e := .refer i v) hi]
      split at hs
      · simp only [Option.map_eq_some_iff] at hs
        obtain ⟨mem, _, rfl⟩ := hs
        exact h id
      · cases hs
        simp only [omGet_omSet, if_neg hi]; exact h id
      · cases hs
        simp only [omGet_omSet, if_neg hi]; exact h id

/-- Contents of variable `w` after an event, from its contents `old` before. -/
def memAfter (hist : List UEv) (w : GoVar) (old : Option PVal) : UEv → Option PVal
  | .save i p => if savesOf i hist = [] ∧ w ∈ refersOf i hist then some p else old
  | .refer i v => if w = v then ((savesOf i hist).getLast?).or old else old

/-- Effect of a step on the memory. -/
theorem step_mem {asg : Nat → Nat → Bool} {hist : List UEv} {s s' : USess} {e : UEv} (h : Tracks hist s)
    (hs : s.step asg e = some s') (w : GoVar) : s'.mem w = memAfter hist w (s.mem w) e := by
  unfold memAfter
  cases e with
  | save i p =>
    simp only [USess.step, USess.saveNodeValue, h i, entryOf] at hs
    cases hl : (savesOf i hist).getLast? with
    | some q =>
      have hne : savesOf i hist ≠ [] := by intro e; rw [e] at hl; cases hl
      simp only [hl] at hs
      simp only [setTargets] at hs
      cases hs
      simp [hne]
    | none =>
      have he : savesOf i hist = [] := List.getLast?_eq_none_iff.1 hl
      simp only [hl] at hs
      by_cases hr : refersOf i hist = []
      · simp only [hr, if_true] at hs
        cases hs
        simp [hr]
      · simp only [hr, if_false] at hs
        split at hs
        · cases hs
        · rename_i mem hm
          cases hs
          show mem w = _
          rw [setTargets_spec asg p _ _ _ hm w]
          simp [he]
  | refer i v =>
    simp only [USess.step, USess.setPointerValue, h i, entryOf] at hs
    cases hl : (savesOf i hist).getLast? with
    | some q =>
      simp only [hl, Option.map_eq_some_iff, reflectSet] at hs
      obtain ⟨mem, hm, rfl⟩ := hs
      split at hm
      · cases hm; simp [hl]
      · cases hm
    | none =>
      simp only [hl] at hs
      by_cases hr : refersOf i hist = []
      · simp only [hr, if_true] at hs; cases hs; simp [hl]
      · simp only [hr, if_false] at hs; cases hs; simp [hl]

/-- When a step panics. -/
theorem step_isSome {asg : Nat → Nat → Bool} {hist : List UEv} {s : USess} {e : UEv} (h : Tracks hist s) :
    (s.step asg e).isSome = true ↔ match e with
      | .save i p => savesOf i hist = [] → ∀ v ∈ refersOf i hist, asg p.ty v.ty = true
      | .refer i v => ∀ p, (savesOf i hist).getLast? = some p → asg p.ty v.ty = true := by
  cases e with
  | save i p =>
    simp only [USess.step, USess.saveNodeValue, h i, entryOf]
    cases hl : (savesOf i hist).getLast? with
    | some q =>
      have hne : savesOf i hist ≠ [] := by intro e; rw [e] at hl; cases hl
      simp [hne, setTargets]
    | none =>
      have he : savesOf i hist = [] := List.getLast?_eq_none_iff.1 hl
      by_cases hr : refersOf i hist = []
      · simp [hr]
      · simp only [hr, if_false, he, true_implies]
        rw [← setTargets_isSome asg p _ s.mem]
        cases setTargets asg p s.mem (refersOf i hist) <;> simp
  | refer i v =>
    simp only [USess.step, USess.setPointerValue, h i, entryOf]
    cases hl : (savesOf i hist).getLast? with
    | some q => simp [reflectSet]
    | none => by_cases hr : refersOf i hist = [] <;> simp [hr]

theorem run_tracks {asg : Nat → Nat → Bool} (es : List UEv) : ∀ {hist : List UEv} {s s' : USess}, Tracks hist s →
    s.run asg es = some s' → Tracks (hist ++ es) s' := by
  induction es with
  | nil => intro hist s s' h hs; cases hs; simpa using h
  | cons e r ih =>
    intro hist s s' h hs
    simp only [USess.run] at hs
    split at hs
    · cases hs
    · rename_i s1 h1
      have := ih (step_tracks h h1) hs
      simpa using this

theorem run_append {asg : Nat → Nat → Bool} (a b : List UEv) (s : USess) :
    s.run asg (a ++ b) = (s.run asg a).bind fun s' => s'.run asg b := by
  induction a generalizing s with
  | nil => rfl
  | cons e r ih =>
    simp only [List.cons_append, USess.run]
    cases s.step asg e with
    | none => rfl
    | some s1 => exact ih s1

theorem noRef_refersOf {v : GoVar} {es : List UEv} (h : NoRef v es) (i : Int) : v ∉ refersOf i es := by
  intro hm
  simp only [refersOf, List.mem_filterMap] at hm
  obtain ⟨e, he, h2⟩ := hm
  cases e with
  | save => cases h2
  | refer j w =>
    simp only at h2
    split at h2
    · cases h2; exact h _ he
    · cases h2

/-- While `v` waits for nobody, nothing changes it. -/
theorem run_mem_settled {asg : Nat → Nat → Bool} {v : GoVar} (es : List UEv) : ∀ {hist : List UEv} {s s' : USess},
    Tracks hist s → s.run asg es = some s' → NoRef v es → (∀ i, savesOf i hist = [] → v ∉ refersOf i hist) → s'.mem v = s.mem v := by
  induction es with
  | nil => intro hist s s' h hs _ _; cases hs; rfl
  | cons e r ih =>
    intro hist s s' h hs hn hw
    simp only [USess.run] at hs
    split at hs
    · cases hs
    · rename_i s1 h1
      have hn' : NoRef v r := fun i hm => hn i (List.mem_cons_of_mem _ hm)
      have he : ∀ i, e ≠ .refer i v := fun i he => hn i (he ▸ List.mem_cons_self ..)
      have hw' : ∀ i, savesOf i (hist ++ [e]) = [] → v ∉ refersOf i (hist ++ [e]) := by
        intro i hs'
        rw [savesOf_append] at hs'
        rw [refersOf_append]
        simp only [List.append_eq_nil_iff] at hs'
        simp only [List.mem_append, not_or]
        exact ⟨hw i hs'.1, noRef_refersOf (fun j hm => by simp only [List.mem_singleton] at hm; exact he j hm.symm) i⟩
      rw [ih (step_tracks h h1) hs hn' hw', step_mem h h1, memAfter.eq_def]
      cases e with
      | save i p =>
        simp only
        rw [if_neg]
        rintro ⟨h2, h3⟩; exact hw i h2 h3
      | refer i w =>
        simp only
        rw [if_neg]
        rintro rfl; exact he i rfl

/-- A waiting variable gets the first address saved for its node. -/
theorem run_mem_waiting {asg : Nat → Nat → Bool} {v : GoVar} {id : Int} (es : List UEv) : ∀ {hist : List UEv} {s s' : USess},
    Tracks hist s → s.run asg es = some s' → NoRef v es → savesOf id hist = [] → v ∈ refersOf id hist →
    (∀ i, i ≠ id → v ∉ refersOf i hist) → s'.mem v = ((savesOf id es).head?).or (s.mem v) := by
  induction es with
  | nil => intro hist s s' h hs _ _ _ _; cases hs; simp [savesOf]
  | cons e r ih =>
    intro hist s s' h hs hn hsv hv hoth
    simp only [USess.run] at hs
    split at hs
    · cases hs
    · rename_i s1 h1
      have hn' : NoRef v r := fun i hm => hn i (List.mem_cons_of_mem _ hm)
      have he : ∀ i, e ≠ .refer i v := fun i he => hn i (he ▸ List.mem_cons_self ..)
      have hnr : ∀ i, v ∉ refersOf i [e] := noRef_refersOf (fun j hm => by simp only [List.mem_singleton] at hm; exact he j hm.symm)
      by_cases hid : ∃ p, e = .save id p
      · obtain ⟨p, rfl⟩ := hid
        have hm : s1.mem v = some p := by rw [step_mem h h1]; simp [memAfter, hsv, hv]
        rw [run_mem_settled r (step_tracks h h1) hs hn', hm]
        · simp [savesOf]
        · intro i hi
          by_cases hii : i = id
          · subst hii; simp [savesOf] at hi
          · rw [refersOf_append]; simp only [List.mem_append, not_or]; exact ⟨hoth i hii, hnr i⟩
      · have hs0 : savesOf id [e] = [] := by
          cases e with
          | save j p =>
            have : j ≠ id := by rintro rfl; exact hid ⟨p, rfl⟩
            simp [savesOf, this]
          | refer => simp [savesOf]
        have hmem : s1.mem v = s.mem v := by
          rw [step_mem h h1, memAfter.eq_def]
          cases e with
          | save j p =>
            have hj : j ≠ id := by rintro rfl; exact hid ⟨p, rfl⟩
            simp only
            rw [if_neg]
            rintro ⟨_, h3⟩; exact hoth j hj h3
          | refer j w =>
            simp only
            rw [if_neg]
            rintro rfl; exact he j rfl
        rw [ih (step_tracks h h1) hs hn' (by rw [savesOf_append, hsv, hs0]; rfl) (by rw [refersOf_append]; simp [hv])
          (fun i hi => by rw [refersOf_append]; simp only [List.mem_append, not_or]; exact ⟨hoth i hi, hnr i⟩), hmem]
        have : savesOf id (e :: r) = savesOf id r := by
          have := savesOf_append id [e] r
          rw [hs0] at this; simpa using this
        rw [this]

/-- The whole story of one reference. -/
theorem run_reference {asg : Nat → Nat → Bool} {pre post : List UEv} {id : Int} {v : GoVar} {s' : USess}
    (h : USess.init.run asg (pre ++ .refer id v :: post) = some s') (h1 : NoRef v pre) (h2 : NoRef v post) :
    s'.mem v = ((savesOf id pre).getLast?).or ((savesOf id post).head?) := by
  rw [run_append] at h
  simp only [Option.bind_eq_some_iff] at h
  obtain ⟨s1, hs1, h⟩ := h
  have t1 := run_tracks pre tracks_init hs1
  simp only [List.nil_append] at t1
  simp only [USess.run] at h
  split at h
  · cases h
  · rename_i s2 hs2
    have t2 := step_tracks t1 hs2
    have m1 : s1.mem v = none := by
      rw [run_mem_settled pre tracks_init hs1 h1 (fun i _ => by simp [refersOf])]; rfl
    have m2 := step_mem t1 hs2 v
    simp only [memAfter, if_true, m1, Option.or_none] at m2
    cases hl : (savesOf id pre).getLast? with
    | some p =>
      rw [hl] at m2
      rw [run_mem_settled post t2 h h2, m2]
      · simp
      · intro i hi
        rw [savesOf_append] at hi
        simp only [List.append_eq_nil_iff] at hi
        rw [refersOf_append]
        simp only [List.mem_append, not_or]
        refine ⟨noRef_refersOf h1 i, ?_⟩
        by_cases hii : id = i
        · subst hii; rw [hi.1] at hl; cases hl
        · simp [refersOf, hii]
    | none =>
      rw [hl] at m2
      have hnil : savesOf id pre = [] := List.getLast?_eq_none_iff.1 hl
      rw [run_mem_waiting post t2 h h2 (id := id) (by rw [savesOf_append, hnil]; simp [savesOf]) (by rw [refersOf_append]; simp [refersOf]), m2]
      · simp
      · intro i hi
        rw [refersOf_append]
        simp only [List.mem_append, not_or]
        exact ⟨noRef_refersOf h1 i, by simp [refersOf, Ne.symm hi]⟩

/-- The run panics exactly if some reference meets a wrongly typed address. -/
theorem run_isSome (asg : Nat → Nat → Bool) (es : List UEv) : ∀ {hist : List UEv} {s : USess}, Tracks hist s →
    ((s.run asg es).isSome = true ↔ ∀ pre e post, es = pre ++ e :: post → match e with
      | .save i p => savesOf i (hist ++ pre) = [] → ∀ v ∈ refersOf i (hist ++ pre), asg p.ty v.ty = true
      | .refer i v => ∀ p, (savesOf i (hist ++ pre)).getLast? = some p → asg p.ty v.ty = true) := by
  induction es with
  | nil => intro hist s _; simp [USess.run]
  | cons e r ih =>
    intro hist s h
    constructor
    · intro hr pre e' post heq
      simp only [USess.run] at hr
      cases hs : s.step asg e with
      | none => rw [hs] at hr; cases hr
      | some s1 =>
        rw [hs] at hr
        cases pre with
        | nil =>
          simp only [List.nil_append, List.cons.injEq] at heq
          obtain ⟨rfl, rfl⟩ := heq
          rw [List.append_nil]
          exact (step_isSome h).1 (by rw [hs]; rfl)
        | cons e0 pre' =>
          simp only [List.cons_append, List.cons.injEq] at heq
          obtain ⟨rfl, heq⟩ := heq
          have := (ih (step_tracks h hs)).1 hr pre' e' post heq
          simpa using this
    · intro hr
      have h0 : (s.step asg e).isSome = true := (step_isSome h).2 (by have := hr [] e r rfl; rwa [List.append_nil] at this)
      obtain ⟨s1, hs⟩ := Option.isSome_iff_exists.1 h0
      simp only [USess.run, hs]
      refine (ih (step_tracks h hs)).2 fun pre e' post heq => ?_
      have := hr (e :: pre) e' post (by rw [heq]; rfl)
      simpa using this

end Jsonutils
