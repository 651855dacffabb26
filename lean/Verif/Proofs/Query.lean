import Verif.Model.Query
import Verif.Proofs.Url

/-! Query strings: parsing what was printed rebuilds the document. -/

namespace Jsonutils

mutual
/-- No reference pointers, no empty containers, every key survives as a piece; array lengths are Go ints. -/
def J.QueryClean : J → Prop
  | .arr xs => xs ≠ [] ∧ InI64 xs.length ∧ J.QueryCleans xs
  | .dict _ kvs => kvs ≠ [] ∧ (∀ e ∈ kvs, QueryKey e.1) ∧ J.QueryCleanf kvs
  | .ptr _ => False
  | _ => True
def J.QueryCleans : List J → Prop
  | [] => True
  | x :: xs => x.QueryClean ∧ J.QueryCleans xs
def J.QueryCleanf : List (Bytes × J) → Prop
  | [] => True
  | (_, x) :: kvs => x.QueryClean ∧ J.QueryCleanf kvs
end

/-! ### pruned documents -/

/-- Segments of a path. -/
def segsOf (p : List Bytes) : List TextNumber := p.map string2TextNumber

mutual
/-- The part of a document whose scalars lie at paths satisfying `P`, as text; `none` if there is none. -/
def J.prune (P : List TextNumber → Bool) : J → Option J
  | .arr xs => match J.prunes P xs 0 with
    | [] => none
    | l => some (.arr l)
  | .dict _ kvs => match J.prunef P kvs with
    | [] => none
    | l => some (.dict 0 l)
  | v => if P [] then some (.str v.leafText) else none
def J.prunes (P : List TextNumber → Bool) : List J → Nat → List J
  | [], _ => []
  | x :: xs, i => match x.prune (fun p => P (string2TextNumber (intDec i) :: p)) with
    | none => J.prunes P xs (i + 1)
    | some y => y :: J.prunes P xs (i + 1)
def J.prunef (P : List TextNumber → Bool) : List (Bytes × J) → List (Bytes × J)
  | [] => []
  | (k, x) :: kvs => match x.prune (fun p => P (string2TextNumber k :: p)) with
    | none => J.prunef P kvs
    | some y => (k, y) :: J.prunef P kvs
end

theorem mem_leavess {xs : List J} {i : Nat} {l : List Bytes × Bytes} :
    l ∈ J.leavess xs i ↔ ∃ (j : Nat) (x : J) (q : List Bytes × Bytes), xs[j]? = some x ∧ q ∈ x.leaves ∧ l = (intDec ((i + j : Nat) : Int) :: q.1, q.2) := by
  induction xs generalizing i with
  | nil => simp [J.leavess]
  | cons x xs ih =>
    simp only [J.leavess, List.mem_append, List.mem_map]
    rw [ih]
    constructor
    · rintro (⟨q, hq, rfl⟩ | ⟨j, y, q, h1, h2, rfl⟩)
      · exact ⟨0, x, q, rfl, hq, rfl⟩
      · exact ⟨j + 1, y, q, by simpa using h1, h2, by rw [show i + 1 + j = i + (j + 1) by omega]⟩
    · rintro ⟨j, y, q, h1, h2, rfl⟩
      cases j with
      | zero =>
        simp only [List.getElem?_cons_zero, Option.some.injEq] at h1
        subst h1
        exact Or.inl ⟨q, h2, rfl⟩
      | succ j => exact Or.inr ⟨j, y, q, by simpa using h1, h2, by rw [show i + 1 + j = i + (j + 1) by omega]⟩

theorem mem_leavesf {kvs : List (Bytes × J)} {l : List Bytes × Bytes} :
    l ∈ J.leavesf kvs ↔ ∃ k x, (k, x) ∈ kvs ∧ ∃ q ∈ x.leaves, l = (k :: q.1, q.2) := by
  induction kvs with
  | nil => simp [J.leavesf]
  | cons e kvs ih =>
    obtain ⟨k, x⟩ := e
    simp only [J.leavesf, List.mem_append, List.mem_map, List.mem_cons]
    rw [ih]
    constructor
    · rintro (⟨q, hq, rfl⟩ | ⟨k', y, h1, q, h2, rfl⟩)
      · exact ⟨k, x, Or.inl rfl, q, hq, rfl⟩
      · exact ⟨k', y, Or.inr h1, q, h2, rfl⟩
    · rintro ⟨k', y, h1 | h1, q, h2, rfl⟩
      · cases h1; exact Or.inl ⟨q, h2, rfl⟩
      · exact Or.inr ⟨k', y, h1, q, h2, rfl⟩

/-- The list of pruned elements, before dropping the absent ones. -/
def prunesOpt (P : List TextNumber → Bool) (xs : List J) (i : Nat) : List (Option J) :=
  xs.mapIdx fun j x => x.prune fun p => P (string2TextNumber (intDec ((i + j : Nat) : Int)) :: p)

theorem prunes_eq (P : List TextNumber → Bool) (xs : List J) (i : Nat) :
    J.prunes P xs i = (prunesOpt P xs i).filterMap id := by
  induction xs generalizing i with
  | nil => rfl
  | cons x xs ih =>
    have e : prunesOpt P (x :: xs) i = (x.prune fun p => P (string2TextNumber (intDec (i : Int)) :: p)) :: prunesOpt P xs (i + 1) := by
      simp only [prunesOpt, List.mapIdx_cons]
      congr 1
      congr 1
      funext j y
      rw [show i + (j + 1) = i + 1 + j by omega]
    rw [e, J.prunes, ih]
    cases x.prune fun p => P (string2TextNumber (intDec (i : Int)) :: p) <;> rfl

theorem prunesOpt_get (P : List TextNumber → Bool) (xs : List J) (j : Nat) :
    (prunesOpt P xs 0)[j]? = (xs[j]?).map fun x => x.prune fun p => P (string2TextNumber (intDec (j : Int)) :: p) := by
  simp [prunesOpt]

theorem smGet_prunef (P : List TextNumber → Bool) (kvs : SMap J) (h : SMap.Sorted kvs) (k : Bytes) :
    smGet (J.prunef P kvs) k = (smGet kvs k).bind fun x => x.prune fun p => P (string2TextNumber k :: p) := by
  induction kvs with
  | nil => rfl
  | cons e kvs ih =>
    obtain ⟨k', x⟩ := e
    obtain ⟨h1, h2⟩ := sorted_cons.1 h
    by_cases hk : k' = k
    · subst hk
      have hn : smGet kvs k' = none := smGet_none_of fun e he => (blt_ne (h1 e he)).symm
      have hi := ih h2
      rw [hn] at hi
      simp only [J.prunef, smGet, if_true, Option.bind_some]
      cases hx : x.prune fun p => P (string2TextNumber k' :: p) with
      | none => simpa using hi
      | some y => simp [smGet]
    · simp only [J.prunef, smGet, hk, if_false]
      cases hx : x.prune fun p => P (string2TextNumber k' :: p) with
      | none => simpa using ih h2
      | some y => simp [smGet, hk]; simpa using ih h2

theorem prunef_keys (P : List TextNumber → Bool) (kvs : List (Bytes × J)) : ∀ e ∈ J.prunef P kvs, e.1 ∈ smKeys kvs := by
  induction kvs with
  | nil => simp [J.prunef]
  | cons e kvs ih =>
    obtain ⟨k', x⟩ := e
    intro e he
    simp only [J.prunef] at he
    cases hx : x.prune fun p => P (string2TextNumber k' :: p) with
    | none =>
      rw [hx] at he
      have := ih e he
      simp only [smKeys, List.map_cons, List.mem_cons] at *
      exact Or.inr this
    | some y =>
      rw [hx] at he
      simp only [List.mem_cons] at he
      rcases he with rfl | he
      · simp [smKeys]
      · have := ih e he
        simp only [smKeys, List.map_cons, List.mem_cons] at *
        exact Or.inr this

theorem prunef_sorted (P : List TextNumber → Bool) (kvs : SMap J) (h : SMap.Sorted kvs) : SMap.Sorted (J.prunef P kvs) := by
  induction kvs with
  | nil => exact sorted_nil
  | cons e kvs ih =>
    obtain ⟨k', x⟩ := e
    obtain ⟨h1, h2⟩ := sorted_cons.1 h
    simp only [J.prunef]
    cases hx : x.prune fun p => P (string2TextNumber k' :: p) with
    | none => exact ih h2
    | some y =>
      refine sorted_cons.2 ⟨fun e he => ?_, ih h2⟩
      have := prunef_keys P kvs e he
      simp only [smKeys, List.mem_map] at this
      obtain ⟨e', he', heq⟩ := this
      rw [← heq]
      exact h1 e' he'

/-- A document has a pruned version exactly if some scalar is kept. -/
theorem prune_isSome (v : J) : ∀ P, (v.prune P).isSome = true ↔ ∃ l ∈ v.leaves, P (segsOf l.1) = true := by
  induction v using J.ind with
  | arr xs ih =>
    intro P
    simp only [J.prune, J.leaves]
    have hs : (∃ l ∈ J.leavess xs 0, P (segsOf l.1) = true) ↔
        ∃ (j : Nat) (x : J), xs[j]? = some x ∧ (x.prune fun p => P (string2TextNumber (intDec (j : Int)) :: p)).isSome = true := by
      constructor
      · rintro ⟨l, hl, hP⟩
        obtain ⟨j, x, q, h1, h2, rfl⟩ := mem_leavess.1 hl
        refine ⟨j, x, h1, (ih j x h1 _).2 ⟨q, h2, ?_⟩⟩
        simpa [segsOf] using hP
      · rintro ⟨j, x, h1, h2⟩
        obtain ⟨q, hq, hP⟩ := (ih j x h1 _).1 h2
        exact ⟨_, mem_leavess.2 ⟨j, x, q, h1, hq, rfl⟩, by simpa [segsOf] using hP⟩
    rw [hs]
    have he : J.prunes P xs 0 = [] ↔ ¬ ∃ (j : Nat) (x : J), xs[j]? = some x ∧ (x.prune fun p => P (string2TextNumber (intDec (j : Int)) :: p)).isSome = true := by
      rw [prunes_eq, List.filterMap_eq_nil_iff]
      constructor
      · rintro h ⟨j, x, h1, h2⟩
        have hm : (x.prune fun p => P (string2TextNumber (intDec (j : Int)) :: p)) ∈ prunesOpt P xs 0 := by
          apply List.mem_of_getElem? (i := j)
          rw [prunesOpt_get, h1]; rfl
        have := h _ hm
        simp only [id] at this
        rw [this] at h2; cases h2
      · intro h o ho
        obtain ⟨j, hj⟩ := List.getElem?_of_mem ho
        rw [prunesOpt_get] at hj
        cases hx : xs[j]? with
        | none => rw [hx] at hj; cases hj
        | some x =>
          rw [hx] at hj
          simp only [Option.map_some, Option.some.injEq] at hj
          cases o with
          | none => rfl
          | some y => exact absurd ⟨j, x, hx, by rw [hj]; rfl⟩ h
    cases hl : J.prunes P xs 0 with
    | nil => simp only [Option.isSome_none, Bool.false_eq_true, false_iff]; exact he.1 hl
    | cons y ys =>
      simp only [Option.isSome_some, true_iff]
      refine Classical.byContradiction fun h => ?_
      rw [he.2 h] at hl; cases hl
  | dict id kvs ih =>
    intro P
    simp only [J.prune, J.leaves]
    have he : ∀ kvs' : List (Bytes × J), (∀ k x, (k, x) ∈ kvs' → ∀ P, (x.prune P).isSome = true ↔ ∃ l ∈ x.leaves, P (segsOf l.1) = true) →
        (J.prunef P kvs' = [] ↔ ¬ ∃ l ∈ J.leavesf kvs', P (segsOf l.1) = true) := by
      intro kvs' hk
      induction kvs' with
      | nil => simp [J.prunef, J.leavesf]
      | cons e r ihr =>
        obtain ⟨k, x⟩ := e
        have h1 := hk k x (by simp) fun p => P (string2TextNumber k :: p)
        have h2 := ihr fun k' y hy => hk k' y (by simp [hy])
        simp only [J.prunef, J.leavesf, List.mem_append, List.mem_map]
        have hsplit : (∃ l, ((∃ a ∈ x.leaves, (k :: a.1, a.2) = l) ∨ l ∈ J.leavesf r) ∧ P (segsOf l.1) = true) ↔
            (∃ a ∈ x.leaves, P (string2TextNumber k :: segsOf a.1) = true) ∨ ∃ l ∈ J.leavesf r, P (segsOf l.1) = true := by
          constructor
          · rintro ⟨l, ⟨a, ha, rfl⟩ | hl, hP⟩
            · exact Or.inl ⟨a, ha, by simpa [segsOf] using hP⟩
            · exact Or.inr ⟨l, hl, hP⟩
          · rintro (⟨a, ha, hP⟩ | ⟨l, hl, hP⟩)
            · exact ⟨_, Or.inl ⟨a, ha, rfl⟩, by simpa [segsOf] using hP⟩
            · exact ⟨l, Or.inr hl, hP⟩
        rw [hsplit, ← h1]
        cases hx : x.prune fun p => P (string2TextNumber k :: p) with
        | none => simp only [Option.isSome_none, Bool.false_eq_true, false_or]; exact h2
        | some y => simp
    have he' := he kvs fun k x hm => ih k x hm
    cases hl : J.prunef P kvs with
    | nil => simp only [Option.isSome_none, Bool.false_eq_true, false_iff]; exact he'.1 hl
    | cons y ys =>
      simp only [Option.isSome_some, true_iff]
      refine Classical.byContradiction fun h => ?_
      rw [he'.2 h] at hl; cases hl
  | null => intro P; simp [J.prune, J.leaves, segsOf]
  | bool b => intro P; simp [J.prune, J.leaves, segsOf]
  | int n => intro P; simp [J.prune, J.leaves, segsOf]
  | float x b => intro P; simp [J.prune, J.leaves, segsOf]
  | str s => intro P; simp [J.prune, J.leaves, segsOf]
  | ptr i => intro P; simp [J.prune, J.leaves, segsOf]

/-- Only the scalars' paths matter. -/
theorem prune_congr (v : J) : ∀ P Q : List TextNumber → Bool, (∀ l ∈ v.leaves, P (segsOf l.1) = Q (segsOf l.1)) → v.prune P = v.prune Q := by
  induction v using J.ind with
  | arr xs ih =>
    intro P Q h
    simp only [J.prune]
    have : J.prunes P xs 0 = J.prunes Q xs 0 := by
      rw [prunes_eq, prunes_eq]
      congr 1
      apply List.ext_getElem?
      intro j
      rw [prunesOpt_get, prunesOpt_get]
      cases hx : xs[j]? with
      | none => rfl
      | some x =>
        simp only [Option.map_some]
        congr 1
        refine ih j x hx _ _ fun l hl => ?_
        have := h (intDec (j : Int) :: l.1, l.2) (by simp only [J.leaves]; exact mem_leavess.2 ⟨j, x, l, hx, hl, by simp⟩)
        simpa [segsOf] using this
    rw [this]
  | dict id kvs ih =>
    intro P Q h
    simp only [J.prune]
    have : J.prunef P kvs = J.prunef Q kvs := by
      simp only [J.leaves] at h
      clear id
      induction kvs with
      | nil => rfl
      | cons e r ihr =>
        obtain ⟨k, x⟩ := e
        simp only [J.prunef]
        rw [ih k x (by simp) _ (fun p => Q (string2TextNumber k :: p)) fun l hl => by
          have := h (k :: l.1, l.2) (mem_leavesf.2 ⟨k, x, by simp, l, hl, rfl⟩)
          simpa [segsOf] using this]
        rw [ihr (fun k' y hy => ih k' y (by simp [hy])) fun l hl => h l (by simp only [J.leavesf, List.mem_append]; exact Or.inr hl)]
    rw [this]
  | null => intro P Q h; simp [J.prune, J.leaves, segsOf] at h ⊢; rw [h]
  | bool b => intro P Q h; simp [J.prune, J.leaves, segsOf] at h ⊢; rw [h]
  | int n => intro P Q h; simp [J.prune, J.leaves, segsOf] at h ⊢; rw [h]
  | float x b => intro P Q h; simp [J.prune, J.leaves, segsOf] at h ⊢; rw [h]
  | str s => intro P Q h; simp [J.prune, J.leaves, segsOf] at h ⊢; rw [h]
  | ptr i => intro P Q h; simp [J.prune, J.leaves, segsOf] at h ⊢; rw [h]

/-! ### adding the next scalar -/

/-- Paths before `p`, and up to `p`. -/
def ltPath (p q : List TextNumber) : Bool := segsLess q p
def lePath (p q : List TextNumber) : Bool := segsLess q p || q == p

theorem ltPath_cons (a : TextNumber) (p q : List TextNumber) : ltPath (a :: p) (a :: q) = ltPath p q := segsLess_cons a q p

theorem lePath_cons (a : TextNumber) (p q : List TextNumber) : lePath (a :: p) (a :: q) = lePath p q := by
  unfold lePath
  rw [segsLess_cons]
  congr 1
  rw [Bool.eq_iff_iff]
  simp

theorem le_eq_lt_of_ne {a b : TextNumber} (h : b ≠ a) (p q : List TextNumber) : lePath (a :: p) (b :: q) = ltPath (a :: p) (b :: q) := by
  unfold lePath ltPath
  have : ((b :: q) == (a :: p)) = false := by simp [h]
  rw [this, Bool.or_false]

/-- What a step must do: `v` pruned to the paths before `p` becomes `v` pruned to the paths up to `p`. -/
def StepOk (v : J) (p : List TextNumber) (t : Bytes) : Prop :=
  ∃ y, v.prune (lePath p) = some y ∧ (addSeg p (v.prune (ltPath p)) [t]).2 = .ok y ∧
    ((v.prune (ltPath p)).isSome = true → (addSeg p (v.prune (ltPath p)) [t]).1 = some y)

theorem addSeg_dict (s : TextNumber) (segs : List TextNumber) (val : List Bytes) (id : Int) (kvs : SMap J) (body : Option J)
    (h : body = some (.dict id kvs) ∨ (body = none ∧ id = 0 ∧ kvs = [] ∧ ¬ (s.isNumber = true ∧ s.number = 0))) :
    addSeg (s :: segs) body val =
      match smGet kvs s.toText with
      | none => match (addSeg segs none val).2 with
        | .error e => (body, .error e)
        | .ok next => (body.map fun _ => J.dict id (smAdd kvs s.toText next), .ok (J.dict id (smAdd kvs s.toText next)))
      | some next => (body.map fun _ => J.dict id (smAdd kvs s.toText (((addSeg segs (some next) val).1).getD next)),
          .ok (J.dict id (smAdd kvs s.toText (((addSeg segs (some next) val).1).getD next)))) := by
  rcases h with rfl | ⟨rfl, rfl, rfl, hn⟩
  · rfl
  · have : (s.isNumber && s.number == 0) = false := by
      rw [Bool.eq_false_iff]
      intro h
      simp only [Bool.and_eq_true, beq_iff_eq] at h
      exact hn h
    rw [addSeg]
    simp only [this, Bool.false_eq_true, if_false]
    rfl

theorem addSeg_arr (s : TextNumber) (segs : List TextNumber) (val : List Bytes) (xs : List J) (body : Option J)
    (h : body = some (.arr xs) ∨ (body = none ∧ xs = [] ∧ (s.isNumber = true ∧ s.number = 0))) :
    addSeg (s :: segs) body val =
      if s.number < xs.length then
        match arrGetAt xs s.number with
        | .ok next =>
          let next' := ((addSeg segs (some next) val).1).getD next
          let i := if s.number < 0 then (xs.length : Int) + s.number else s.number
          let b := J.arr (xs.set i.toNat next'); (body.map fun _ => b, .ok b)
        | _ => (body, .error .outOfIndexRange)
      else if (xs.length : Int) = s.number then
        match (addSeg segs none val).2 with
        | .error e => (body, .error e)
        | .ok next => let b := J.arr (xs ++ [next]); (body.map fun _ => b, .ok b)
      else (body, .error .outOfIndexRange) := by
  rcases h with rfl | ⟨rfl, rfl, hn⟩
  · rfl
  · have : (s.isNumber && s.number == 0) = true := by simp [hn.1, hn.2]
    rw [addSeg]
    simp only [this, if_true]
    rfl

theorem string2TextNumber_inj {k k' : Bytes} (h : (string2TextNumber k).toText = k) (h' : (string2TextNumber k').toText = k')
    (e : string2TextNumber k = string2TextNumber k') : k = k' := by rw [← h, ← h', e]

/-- The step at a dictionary. -/
theorem dict_step (kvs : SMap J) (hs : SMap.Sorted kvs) (hk : ∀ e ∈ kvs, QueryKey e.1) (k : Bytes) (x : J) (hx : (k, x) ∈ kvs)
    (p : List TextNumber) (t : Bytes) (ih : StepOk x p t) (body : Option J)
    (hb : body = some (.dict 0 (J.prunef (ltPath (string2TextNumber k :: p)) kvs)) ∨
      (body = none ∧ J.prunef (ltPath (string2TextNumber k :: p)) kvs = [] ∧ k ≠ b!"0")) :
    addSeg (string2TextNumber k :: p) body [t] =
      (body.map fun _ => .dict 0 (J.prunef (lePath (string2TextNumber k :: p)) kvs),
        .ok (.dict 0 (J.prunef (lePath (string2TextNumber k :: p)) kvs))) := by
  have ht : ∀ e ∈ kvs, (string2TextNumber e.1).toText = e.1 := fun e he => (toText_eq_iff e.1).2 (hk e he).2
  have hg : smGet kvs k = some x := smGet_of_mem hs hx
  have hn0 : k ≠ b!"0" → ¬ ((string2TextNumber k).isNumber = true ∧ (string2TextNumber k).number = 0) := by
    rintro h ⟨h1, h2⟩
    refine h ((ht _ hx).symm.trans ?_)
    simp only [TextNumber.toText, h1, h2, if_true]
    rfl
  rw [addSeg_dict (string2TextNumber k) p [t] 0 (J.prunef (ltPath (string2TextNumber k :: p)) kvs) body
    (hb.imp id fun ⟨a, b, c⟩ => ⟨a, rfl, b, hn0 c⟩)]
  rw [ht _ hx, smGet_prunef _ _ hs, hg]
  simp only [Option.bind_some]
  have e1 : (fun q => ltPath (string2TextNumber k :: p) (string2TextNumber k :: q)) = ltPath p := by
    funext q; exact ltPath_cons _ _ _
  rw [e1]
  obtain ⟨y, y1, y2, y3⟩ := ih
  -- the resulting entries
  have hfin : smAdd (J.prunef (ltPath (string2TextNumber k :: p)) kvs) k y = J.prunef (lePath (string2TextNumber k :: p)) kvs := by
    refine sorted_ext (sorted_smAdd (prunef_sorted _ _ hs) _ _) (prunef_sorted _ _ hs) fun k' => ?_
    rw [smGet_smAdd _ (prunef_sorted _ _ hs), smGet_prunef _ _ hs, smGet_prunef _ _ hs]
    by_cases hkk : k' = k
    · subst hkk
      rw [hg]
      have e2 : (fun q => lePath (string2TextNumber k' :: p) (string2TextNumber k' :: q)) = lePath p := by
        funext q; exact lePath_cons _ _ _
      simp only [if_true, Option.bind_some, e2, y1]
    · have : (if k = k' then some y else (smGet kvs k').bind fun x => x.prune fun q => ltPath (string2TextNumber k :: p) (string2TextNumber k' :: q))
          = (smGet kvs k').bind fun x => x.prune fun q => ltPath (string2TextNumber k :: p) (string2TextNumber k' :: q) := by
        rw [if_neg (fun h => hkk h.symm)]
      first
        | rw [if_neg hkk]
        | rw [this]
      cases hg' : smGet kvs k' with
      | none => rfl
      | some x' =>
        simp only [Option.bind_some]
        congr 1
        funext q
        refine (le_eq_lt_of_ne (fun e => hkk ?_) p q).symm
        exact string2TextNumber_inj (ht _ (smGet_mem hg')) (ht _ hx) e
  cases hc : x.prune (ltPath p) with
  | none =>
    rw [hc] at y2
    simp only [y2]
    rw [hfin]
  | some z =>
    rw [hc] at y3
    have := y3 rfl
    simp only [this, Option.getD_some]
    rw [hfin]

/-! ### arrays -/

theorem opts_present {α} (os : List (Option α)) (h : os.Pairwise fun a b => b.isSome = true → a.isSome = true) (i : Nat) (z : α)
    (hi : os[i]? = some (some z)) (y : α) :
    i < (os.filterMap id).length ∧ (os.filterMap id)[i]? = some z ∧ (os.set i (some y)).filterMap id = (os.filterMap id).set i y := by
  induction os generalizing i with
  | nil => simp at hi
  | cons o os ih =>
    obtain ⟨h1, h2⟩ := List.pairwise_cons.1 h
    cases i with
    | zero =>
      simp only [List.getElem?_cons_zero, Option.some.injEq] at hi
      subst hi
      simp
    | succ i =>
      simp only [List.getElem?_cons_succ] at hi
      have ho : o.isSome = true := h1 (some z) (List.mem_of_getElem? hi) rfl
      obtain ⟨w, rfl⟩ := Option.isSome_iff_exists.1 ho
      obtain ⟨a, b, c⟩ := ih h2 i hi
      simp only [List.filterMap_cons, id, List.length_cons, List.getElem?_cons_succ, List.set_cons_succ]
      exact ⟨by omega, b, by rw [c]⟩

theorem opts_absent {α} (os : List (Option α)) (h : os.Pairwise fun a b => b.isSome = true → a.isSome = true) (i : Nat)
    (hi : os[i]? = some none) (hlt : ∀ j < i, ∀ o, os[j]? = some o → o.isSome = true) (y : α) :
    (os.filterMap id).length = i ∧ (os.set i (some y)).filterMap id = os.filterMap id ++ [y] := by
  induction os generalizing i with
  | nil => simp at hi
  | cons o os ih =>
    obtain ⟨h1, h2⟩ := List.pairwise_cons.1 h
    cases i with
    | zero =>
      simp only [List.getElem?_cons_zero, Option.some.injEq] at hi
      subst hi
      have : os.filterMap id = [] := by
        rw [List.filterMap_eq_nil_iff]
        intro a ha
        cases a with
        | none => rfl
        | some w => have := h1 _ ha rfl; cases this
      simp [this]
    | succ i =>
      simp only [List.getElem?_cons_succ] at hi
      have ho : o.isSome = true := hlt 0 (by omega) o rfl
      obtain ⟨w, rfl⟩ := Option.isSome_iff_exists.1 ho
      obtain ⟨a, b⟩ := ih h2 i hi fun j hj o ho => hlt (j + 1) (by omega) o (by simpa using ho)
      simp only [List.filterMap_cons, id, List.length_cons, List.set_cons_succ]
      exact ⟨by omega, by rw [b]; rfl⟩

theorem mades_segsOf (p : List Bytes) : Mades (segsOf p) := by
  intro a ha
  simp only [segsOf, List.mem_map] at ha
  obtain ⟨q, _, rfl⟩ := ha
  exact ⟨q, rfl⟩

theorem index_less {i j : Nat} (hj : InI64 j) (h : i < j) (p q : List TextNumber) (hl : p.length ≤ q.length) :
    segsLess (string2TextNumber (intDec i) :: p) (string2TextNumber (intDec j) :: q) = true := by
  have hi : InI64 (i : Int) := by unfold InI64 i64min i64max at *; omega
  rw [string2TextNumber_number (isNumber_intDec hi), string2TextNumber_number (isNumber_intDec hj), segsLess_iff]
  simp only [List.length_cons]
  by_cases hll : p.length < q.length
  · left; omega
  · refine Or.inr ⟨by omega, ?_⟩
    have : (TextNumber.compare ⟨[], (i : Int), true⟩ ⟨[], (j : Int), true⟩) = -1 := by
      simp [TextNumber.compare, h]
    simp [segsLessLoop, this]

theorem queryOks_get {xs : List J} (h : J.QueryOks xs) {i : Nat} {x : J} (hx : xs[i]? = some x) : x.QueryOk := by
  induction xs generalizing i with
  | nil => simp at hx
  | cons y ys ih =>
    cases i with
    | zero => simp only [List.getElem?_cons_zero, Option.some.injEq] at hx; subst hx; exact h.1
    | succ i => exact ih h.2 (by simpa using hx)

theorem queryOkf_get {kvs : List (Bytes × J)} (h : J.QueryOkf kvs) {k : Bytes} {x : J} (hx : (k, x) ∈ kvs) : x.QueryOk := by
  induction kvs with
  | nil => simp at hx
  | cons e r ih =>
    obtain ⟨k', y⟩ := e
    simp only [List.mem_cons] at hx
    rcases hx with hx | hx
    · cases hx; exact h.1
    · exact ih h.2 hx

theorem queryCleans_get {xs : List J} (h : J.QueryCleans xs) {i : Nat} {x : J} (hx : xs[i]? = some x) : x.QueryClean := by
  induction xs generalizing i with
  | nil => simp at hx
  | cons y ys ih =>
    cases i with
    | zero => simp only [List.getElem?_cons_zero, Option.some.injEq] at hx; subst hx; exact h.1
    | succ i => exact ih h.2 (by simpa using hx)

theorem queryCleanf_get {kvs : List (Bytes × J)} (h : J.QueryCleanf kvs) {k : Bytes} {x : J} (hx : (k, x) ∈ kvs) : x.QueryClean := by
  induction kvs with
  | nil => simp at hx
  | cons e r ih =>
    obtain ⟨k', y⟩ := e
    simp only [List.mem_cons] at hx
    rcases hx with hx | hx
    · cases hx; exact h.1
    · exact ih h.2 hx

mutual
theorem QueryOk.clean : (v : J) → v.QueryOk → v.QueryClean
  | .arr xs, h => by simp only [J.QueryOk] at h; exact ⟨h.1, h.2.1, QueryOks.clean xs h.2.2.2⟩
  | .dict id kvs, h => by simp only [J.QueryOk] at h; exact ⟨h.1, fun e he => (h.2.1 e he).1, QueryOkf.clean kvs h.2.2⟩
  | .null, _ => trivial
  | .bool _, _ => trivial
  | .int _, _ => trivial
  | .float _ _, _ => trivial
  | .str _, _ => trivial
  | .ptr _, h => absurd h (by simp [J.QueryOk])
theorem QueryOks.clean : (xs : List J) → J.QueryOks xs → J.QueryCleans xs
  | [], _ => trivial
  | x :: xs, h => ⟨QueryOk.clean x h.1, QueryOks.clean xs h.2⟩
theorem QueryOkf.clean : (kvs : List (Bytes × J)) → J.QueryOkf kvs → J.QueryCleanf kvs
  | [], _ => trivial
  | (_, x) :: kvs, h => ⟨QueryOk.clean x h.1, QueryOkf.clean kvs h.2⟩
end

theorem queryOrders_get {xs : List J} (h : J.QueryOrders xs) {i : Nat} {x : J} (hx : xs[i]? = some x) : x.QueryOrder := by
  induction xs generalizing i with
  | nil => simp at hx
  | cons y ys ih =>
    cases i with
    | zero => simp only [List.getElem?_cons_zero, Option.some.injEq] at hx; subst hx; exact h.1
    | succ i => exact ih h.2 (by simpa using hx)

theorem queryOrderf_get {kvs : List (Bytes × J)} (h : J.QueryOrderf kvs) {k : Bytes} {x : J} (hx : (k, x) ∈ kvs) : x.QueryOrder := by
  induction kvs with
  | nil => simp at hx
  | cons e r ih =>
    obtain ⟨k', y⟩ := e
    simp only [List.mem_cons] at hx
    rcases hx with hx | hx
    · cases hx; exact h.1
    · exact ih h.2 hx

mutual
theorem QueryOk.order : (v : J) → v.QueryOk → v.QueryOrder
  | .arr xs, h => by simp only [J.QueryOk] at h; exact ⟨h.2.2.1, QueryOks.order xs h.2.2.2⟩
  | .dict id kvs, h => by
    simp only [J.QueryOk] at h
    exact ⟨fun x hx => absurd rfl (h.2.1 _ hx).2, QueryOkf.order kvs h.2.2⟩
  | .null, _ => trivial
  | .bool _, _ => trivial
  | .int _, _ => trivial
  | .float _ _, _ => trivial
  | .str _, _ => trivial
  | .ptr _, h => absurd h (by simp [J.QueryOk])
theorem QueryOks.order : (xs : List J) → J.QueryOks xs → J.QueryOrders xs
  | [], _ => trivial
  | x :: xs, h => ⟨QueryOk.order x h.1, QueryOks.order xs h.2⟩
theorem QueryOkf.order : (kvs : List (Bytes × J)) → J.QueryOkf kvs → J.QueryOrderf kvs
  | [], _ => trivial
  | (_, x) :: kvs, h => ⟨QueryOk.order x h.1, QueryOkf.order kvs h.2⟩
end

/-- A key under a negative number comes before the key "0" (same depth). -/
theorem neg_less_zero {k : Bytes} {n : Int} (hn : n < 0) (h : IsNumber k n) (p q : List TextNumber) (hl : p.length = q.length) :
    segsLess (string2TextNumber k :: p) (string2TextNumber b!"0" :: q) = true := by
  have h0 : IsNumber b!"0" 0 := isNumber_intDec (n := 0) (by unfold InI64 i64min i64max; omega)
  rw [string2TextNumber_number h, string2TextNumber_number h0, segsLess_iff]
  refine Or.inr ⟨by simp [hl], ?_⟩
  have : (TextNumber.compare ⟨[], n, true⟩ ⟨[], 0, true⟩) = -1 := by
    simp [TextNumber.compare, hn]
  simp [segsLessLoop, this]

theorem less_of_shorter (p q : List TextNumber) (h : p.length < q.length) : segsLess p q = true :=
  (segsLess_iff _ _).2 (Or.inl h)

theorem prunesOpt_set (P Q : List TextNumber → Bool) (xs : List J) (i : Nat) (x : J) (hx : xs[i]? = some x) (y : J)
    (hy : (x.prune fun q => Q (string2TextNumber (intDec (i : Int)) :: q)) = some y)
    (hne : ∀ j : Nat, j ≠ i → j < xs.length → ∀ q, P (string2TextNumber (intDec (j : Int)) :: q) = Q (string2TextNumber (intDec (j : Int)) :: q)) :
    prunesOpt Q xs 0 = (prunesOpt P xs 0).set i (some y) := by
  apply List.ext_getElem?
  intro j
  rw [List.getElem?_set, prunesOpt_get, prunesOpt_get]
  by_cases hij : i = j
  · subst hij
    have : i < (prunesOpt P xs 0).length := by
      have := (List.getElem?_eq_some_iff.1 hx).1
      simpa [prunesOpt] using this
    simp only [if_true, this, hx, Option.map_some, hy]
  · rw [if_neg hij]
    cases hj : xs[j]? with
    | none => rfl
    | some x' =>
      simp only [Option.map_some]
      congr 2
      funext q
      exact (hne j (fun h => hij h.symm) (List.getElem?_eq_some_iff.1 hj).1 q).symm

theorem arr_step (xs : List J) (hlen : InI64 xs.length) (hd : xs.Pairwise NoDeeper) (i : Nat) (x : J) (hx : xs[i]? = some x)
    (l : List Bytes × Bytes) (hl : l ∈ x.leaves) (ih : StepOk x (segsOf l.1) l.2) :
    StepOk (.arr xs) (string2TextNumber (intDec (i : Int)) :: segsOf l.1) l.2 := by
  have hilt := (List.getElem?_eq_some_iff.1 hx).1
  have hI : ∀ j : Nat, j < xs.length → InI64 (j : Int) := fun j hj => by unfold InI64 i64min i64max at *; omega
  have hnum : ∀ j : Nat, j < xs.length → string2TextNumber (intDec (j : Int)) = ⟨[], (j : Int), true⟩ := fun j hj =>
    string2TextNumber_number (isNumber_intDec (hI j hj))
  generalize hp : string2TextNumber (intDec (i : Int)) :: segsOf l.1 = p
  have hpm : Mades p := by
    subst hp
    intro a ha
    simp only [List.mem_cons] at ha
    rcases ha with rfl | ha
    · exact ⟨_, rfl⟩
    · exact mades_segsOf _ a ha
  have hm : ∀ (j : Nat) (q : List Bytes), Mades (string2TextNumber (intDec (j : Int)) :: segsOf q) := by
    intro j q a ha
    simp only [List.mem_cons] at ha
    rcases ha with rfl | ha
    · exact ⟨_, rfl⟩
    · exact mades_segsOf _ a ha
  have hnd : ∀ (j j' : Nat) (u w : J), j < j' → xs[j]? = some u → xs[j']? = some w → NoDeeper u w := by
    intro j j' u w hjj hu hw
    obtain ⟨h1, h1'⟩ := List.getElem?_eq_some_iff.1 hu
    obtain ⟨h2, h2'⟩ := List.getElem?_eq_some_iff.1 hw
    have := (List.pairwise_iff_getElem.1 hd) j j' h1 h2 hjj
    rw [h1', h2'] at this
    exact this
  -- prefix closedness
  have hpc : (prunesOpt (ltPath p) xs 0).Pairwise fun a b => b.isSome = true → a.isSome = true := by
    rw [List.pairwise_iff_getElem]
    intro j j' h1 h2 hjj hs
    have g1 := List.getElem?_eq_getElem h1
    have g2 := List.getElem?_eq_getElem h2
    have hl1 : j < xs.length := by simpa [prunesOpt] using h1
    have hl2 : j' < xs.length := by simpa [prunesOpt] using h2
    rw [prunesOpt_get, List.getElem?_eq_getElem hl1] at g1
    rw [prunesOpt_get, List.getElem?_eq_getElem hl2] at g2
    simp only [Option.map_some, Option.some.injEq] at g1 g2
    rw [← g1, prune_isSome]
    rw [← g2, prune_isSome] at hs
    obtain ⟨q', hq', hlt'⟩ := hs
    obtain ⟨q, hq, hle⟩ := hnd j j' _ _ hjj (List.getElem?_eq_getElem hl1) (List.getElem?_eq_getElem hl2)
    refine ⟨q, hq, ?_⟩
    have := index_less (hI j' hl2) hjj (segsOf q.1) (segsOf q'.1) (by simpa [segsOf] using hle q' hq')
    exact segsLess_trans (hm j q.1) (hm j' q'.1) hpm this hlt'
  have hbelow : ∀ j < i, ∀ o, (prunesOpt (ltPath p) xs 0)[j]? = some o → o.isSome = true := by
    intro j hj o ho
    have hl1 : j < xs.length := by omega
    rw [prunesOpt_get, List.getElem?_eq_getElem hl1] at ho
    simp only [Option.map_some, Option.some.injEq] at ho
    rw [← ho, prune_isSome]
    obtain ⟨q, hq, hle⟩ := hnd j i _ _ hj (List.getElem?_eq_getElem hl1) hx
    refine ⟨q, hq, ?_⟩
    have := index_less (hI i hilt) hj (segsOf q.1) (segsOf l.1) (by simpa [segsOf] using hle l hl)
    rw [hp] at this
    exact this
  obtain ⟨y, y1, y2, y3⟩ := ih
  have e1 : (fun q => ltPath p (string2TextNumber (intDec (i : Int)) :: q)) = ltPath (segsOf l.1) := by
    funext q; rw [← hp]; exact ltPath_cons _ _ _
  have e2 : (fun q => lePath p (string2TextNumber (intDec (i : Int)) :: q)) = lePath (segsOf l.1) := by
    funext q; rw [← hp]; exact lePath_cons _ _ _
  have hset := prunesOpt_set (ltPath p) (lePath p) xs i x hx y (by rw [e2]; exact y1) (fun j hj hjl q => by
    rw [← hp]
    refine (le_eq_lt_of_ne (fun e => hj ?_) _ q).symm
    rw [hnum j hjl, hnum i hilt] at e
    simp only [TextNumber.mk.injEq, and_true, true_and] at e
    omega)
  have hoi : (prunesOpt (ltPath p) xs 0)[i]? = some (x.prune (ltPath (segsOf l.1))) := by
    rw [prunesOpt_get, hx]; simp only [Option.map_some, e1]
  have hlt : (J.arr xs).prune (ltPath p) = (match (prunesOpt (ltPath p) xs 0).filterMap id with
    | [] => none
    | m => some (.arr m)) := by rw [J.prune, prunes_eq]
  have hle : (J.arr xs).prune (lePath p) = (match ((prunesOpt (ltPath p) xs 0).set i (some y)).filterMap id with
    | [] => none
    | m => some (.arr m)) := by rw [J.prune, prunes_eq, hset]
  generalize hM : (prunesOpt (ltPath p) xs 0).filterMap id = M at *
  have hs0 : i = 0 → (string2TextNumber (intDec (i : Int))).isNumber = true ∧ (string2TextNumber (intDec (i : Int))).number = 0 := by
    intro h
    rw [hnum i hilt]; subst h; exact ⟨rfl, rfl⟩
  have hsn : (string2TextNumber (intDec (i : Int))).number = (i : Int) := by rw [hnum i hilt]
  cases hc : x.prune (ltPath (segsOf l.1)) with
  | none =>
    rw [hc] at hoi y2
    obtain ⟨a, b⟩ := opts_absent _ hpc i hoi hbelow y
    rw [hM] at a b
    rw [b] at hle
    have hle' : (J.arr xs).prune (lePath p) = some (.arr (M ++ [y])) := by
      rw [hle]; cases M <;> rfl
    refine ⟨_, hle', ?_⟩
    have hb : (J.arr xs).prune (ltPath p) = some (.arr M) ∨ ((J.arr xs).prune (ltPath p) = none ∧ M = [] ∧
        ((string2TextNumber (intDec (i : Int))).isNumber = true ∧ (string2TextNumber (intDec (i : Int))).number = 0)) := by
      rw [hlt]
      cases M with
      | nil => exact Or.inr ⟨rfl, rfl, hs0 (by simpa using a.symm)⟩
      | cons m ms => exact Or.inl rfl
    generalize (J.arr xs).prune (ltPath p) = body at *
    rw [← hp, addSeg_arr _ _ _ M body hb, hsn, if_neg (by omega), if_pos (by omega)]
    simp only [y2]
    refine ⟨trivial, fun h => ?_⟩
    obtain ⟨w, hw⟩ := Option.isSome_iff_exists.1 h
    rw [hw]; rfl
  | some z =>
    rw [hc] at hoi y3
    have y3' := y3 rfl
    obtain ⟨a, b, c⟩ := opts_present _ hpc i z hoi y
    rw [hM] at a b c
    rw [c] at hle
    have hMne : M ≠ [] := by rintro rfl; simp at a
    have hlt' : (J.arr xs).prune (ltPath p) = some (.arr M) := by
      rw [hlt]; cases M with
      | nil => exact absurd rfl hMne
      | cons m ms => rfl
    have hle' : (J.arr xs).prune (lePath p) = some (.arr (M.set i y)) := by
      rw [hle]
      cases hms : M.set i y with
      | nil =>
        have := congrArg List.length hms
        simp only [List.length_set, List.length_nil] at this
        exact absurd (List.length_eq_zero_iff.1 this) hMne
      | cons m ms => rfl
    refine ⟨_, hle', ?_⟩
    rw [hlt', ← hp, addSeg_arr _ _ _ M _ (Or.inl rfl), hsn, if_pos (by omega)]
    have hget : arrGetAt M (i : Int) = .ok z := by
      unfold arrGetAt
      have h0 : ¬ ((i : Int) < 0) := by omega
      simp only [h0, if_false]
      rw [if_pos (by omega)]
      simp only [Int.toNat_natCast, b]
    rw [hget]
    have h0 : ¬ ((i : Int) < 0) := by omega
    simp only [h0, if_false, y3', Option.getD_some, Int.toNat_natCast, Option.map_some, implies_true, and_self]

theorem scalar_step (v : J) (hv : v.leaves = [([], v.leafText)]) (hp : ∀ P, v.prune P = if P [] then some (.str v.leafText) else none)
    (l : List Bytes × Bytes) (hl : l ∈ v.leaves) : StepOk v (segsOf l.1) l.2 := by
  rw [hv] at hl
  simp only [List.mem_singleton] at hl
  subst hl
  refine ⟨.str v.leafText, ?_, ?_, ?_⟩
  · rw [hp]; simp [lePath, segsOf]
  · rw [hp]; simp [ltPath, segsOf, segsLess_irrefl, addSeg, queryLeaf]
  · rw [hp]; simp [ltPath, segsOf, segsLess_irrefl]

theorem step_ok (v : J) : v.WF → v.QueryClean → v.QueryOrder → ∀ l ∈ v.leaves, StepOk v (segsOf l.1) l.2 := by
  induction v using J.ind with
  | arr xs ih =>
    intro hw hv ho l hl
    simp only [J.QueryClean] at hv
    simp only [J.QueryOrder] at ho
    simp only [J.leaves] at hl
    obtain ⟨j, x, q, h1, h2, rfl⟩ := mem_leavess.1 hl
    rw [Nat.zero_add]
    exact arr_step xs hv.2.1 ho.1 j x h1 q h2 (ih j x h1 (wfs_get hw h1) (queryCleans_get hv.2.2 h1) (queryOrders_get ho.2 h1) q h2)
  | dict id kvs ih =>
    intro hw hv ho l hl
    simp only [J.QueryClean] at hv
    simp only [J.QueryOrder] at ho
    simp only [J.leaves] at hl
    obtain ⟨k, x, h1, q, h2, rfl⟩ := mem_leavesf.1 hl
    have hs := WF_dict_sorted hw
    have hxw : x.WF := (wf_dict_iff.1 hw).2 _ h1
    have hst := ih k x h1 hxw (queryCleanf_get hv.2.2 h1) (queryOrderf_get ho.2 h1) q h2
    have hk : ∀ e ∈ kvs, QueryKey e.1 := fun e he => hv.2.1 e he
    have hlt : (J.dict id kvs).prune (ltPath (string2TextNumber k :: segsOf q.1)) =
        (match J.prunef (ltPath (string2TextNumber k :: segsOf q.1)) kvs with
          | [] => none
          | m => some (.dict 0 m)) := by rw [J.prune]
    have hb : (J.dict id kvs).prune (ltPath (string2TextNumber k :: segsOf q.1)) =
        some (.dict 0 (J.prunef (ltPath (string2TextNumber k :: segsOf q.1)) kvs)) ∨
        ((J.dict id kvs).prune (ltPath (string2TextNumber k :: segsOf q.1)) = none ∧
          J.prunef (ltPath (string2TextNumber k :: segsOf q.1)) kvs = [] ∧ k ≠ b!"0") := by
      rw [hlt]
      cases hm : J.prunef (ltPath (string2TextNumber k :: segsOf q.1)) kvs with
      | nil =>
        refine Or.inr ⟨rfl, rfl, fun hk0 => ?_⟩
        subst hk0
        obtain ⟨k', y, hy, p, hp, hlt'⟩ := ho.1 x h1
        have := (prune_isSome (.dict id kvs) (ltPath (string2TextNumber b!"0" :: segsOf q.1))).2
          ⟨(k' :: p.1, p.2), by simp only [J.leaves]; exact mem_leavesf.2 ⟨k', y, hy, p, hp, rfl⟩, by
            show segsLess (segsOf (k' :: p.1)) _ = true
            rcases hlt' q h2 with h' | ⟨h', n, hn, hk'⟩
            · exact less_of_shorter _ _ (by simpa [segsOf] using h')
            · exact neg_less_zero hn hk' _ _ (by simpa [segsOf] using h')⟩
        rw [hlt, hm] at this
        cases this
      | cons m ms => exact Or.inl rfl
    have hstep := dict_step kvs hs hk k x h1 (segsOf q.1) q.2 hst _ hb
    show StepOk _ (string2TextNumber k :: segsOf q.1) q.2
    have hne : J.prunef (lePath (string2TextNumber k :: segsOf q.1)) kvs ≠ [] := by
      intro h
      have := (prune_isSome (.dict id kvs) (lePath (string2TextNumber k :: segsOf q.1))).2
        ⟨(k :: q.1, q.2), by simp only [J.leaves]; exact mem_leavesf.2 ⟨k, x, h1, q, h2, rfl⟩, by simp [lePath, segsOf]⟩
      rw [J.prune, h] at this
      cases this
    refine ⟨.dict 0 (J.prunef (lePath (string2TextNumber k :: segsOf q.1)) kvs), ?_, ?_, ?_⟩
    · rw [J.prune]
      cases hm : J.prunef (lePath (string2TextNumber k :: segsOf q.1)) kvs with
      | nil => exact absurd hm hne
      | cons m ms => rfl
    · rw [hstep]
    · intro h
      rw [hstep]
      obtain ⟨w, hw⟩ := Option.isSome_iff_exists.1 h
      rw [hw]; rfl
  | null => intro _ _ _; exact scalar_step _ rfl fun _ => by rw [J.prune] <;> simp
  | bool b => intro _ _ _; exact scalar_step _ rfl fun _ => by rw [J.prune] <;> simp
  | int n => intro _ _ _; exact scalar_step _ rfl fun _ => by rw [J.prune] <;> simp
  | float x b => intro _ _ _; exact scalar_step _ rfl fun _ => by rw [J.prune] <;> simp
  | str s => intro _ _ _; exact scalar_step _ rfl fun _ => by rw [J.prune] <;> simp
  | ptr i => intro _ h; exact absurd h (by simp [J.QueryClean])

/-! ### all scalars in turn -/

/-- The top-level dictionary restricted to the paths in `P`. -/
def rootPrune (P : List TextNumber → Bool) (kvs : SMap J) : J := .dict 0 (J.prunef P kvs)

theorem prunef_congr {kvs : SMap J} {P Q : List TextNumber → Bool} (h : ∀ l ∈ J.leavesf kvs, P (segsOf l.1) = Q (segsOf l.1)) :
    J.prunef P kvs = J.prunef Q kvs := by
  induction kvs with
  | nil => rfl
  | cons e r ih =>
    obtain ⟨k, x⟩ := e
    simp only [J.prunef]
    rw [prune_congr x _ (fun p => Q (string2TextNumber k :: p)) fun l hl => by
      have := h (k :: l.1, l.2) (mem_leavesf.2 ⟨k, x, by simp, l, hl, rfl⟩)
      simpa [segsOf] using this]
    rw [ih fun l hl => h l (by simp only [J.leavesf, List.mem_append]; exact Or.inr hl)]

/-- The hypotheses on a top-level dictionary. -/
structure RootOk (kvs : SMap J) : Prop where
  wf : (J.dict 0 kvs).WF
  keys : ∀ e ∈ kvs, QueryKey e.1
  vals : J.QueryCleanf kvs
  ord : J.QueryOrderf kvs

theorem root_step {kvs : SMap J} (h : RootOk kvs) {l : List Bytes × Bytes} (hl : l ∈ J.leavesf kvs) :
    addSeg (segsOf l.1) (some (rootPrune (ltPath (segsOf l.1)) kvs)) [l.2] =
      (some (rootPrune (lePath (segsOf l.1)) kvs), .ok (rootPrune (lePath (segsOf l.1)) kvs)) := by
  obtain ⟨k, x, h1, q, h2, rfl⟩ := mem_leavesf.1 hl
  have hxw : x.WF := (wf_dict_iff.1 h.wf).2 _ h1
  exact dict_step kvs (WF_dict_sorted h.wf) h.keys k x h1 (segsOf q.1) q.2
    (step_ok x hxw (queryCleanf_get h.vals h1) (queryOrderf_get h.ord h1) q h2) _ (Or.inl rfl)

theorem addAll_ok {kvs : SMap J} (h : RootOk kvs) (m : Values) (hm : ∀ l ∈ J.leavesf kvs, valuesGet m (segments2string (segsOf l.1)) = [l.2])
    (done rest : List (List TextNumber)) (hmem : ∀ p, p ∈ done ∨ p ∈ rest ↔ ∃ l ∈ J.leavesf kvs, segsOf l.1 = p)
    (hs : rest.Pairwise fun a b => segsLess a b = true) (hd : ∀ a ∈ done, ∀ b ∈ rest, segsLess a b = true) :
    addAllSegs m rest (rootPrune (fun q => decide (q ∈ done)) kvs) = .ok (rootPrune (fun _ => true) kvs) := by
  induction rest generalizing done with
  | nil =>
    simp only [addAllSegs]
    congr 1
    unfold rootPrune
    congr 1
    apply prunef_congr
    intro l hl
    simpa using (hmem (segsOf l.1)).2 ⟨l, hl, rfl⟩
  | cons p rest ih =>
    obtain ⟨l, hl, rfl⟩ := (hmem p).1 (Or.inr (by simp))
    obtain ⟨s1, s2⟩ := List.pairwise_cons.1 hs
    have e1 : rootPrune (fun q => decide (q ∈ done)) kvs = rootPrune (ltPath (segsOf l.1)) kvs := by
      unfold rootPrune
      congr 1
      apply prunef_congr
      intro l' hl'
      rw [Bool.eq_iff_iff]
      simp only [decide_eq_true_eq, ltPath]
      constructor
      · intro hd'; exact hd _ hd' _ (by simp)
      · intro hlt
        rcases (hmem (segsOf l'.1)).2 ⟨l', hl', rfl⟩ with h' | h'
        · exact h'
        · simp only [List.mem_cons] at h'
          rcases h' with h' | h'
          · rw [h', segsLess_irrefl] at hlt; cases hlt
          · have := segsLess_asymm (mades_segsOf _) (mades_segsOf _) hlt
            rw [s1 _ h'] at this; cases this
    have e2 : rootPrune (lePath (segsOf l.1)) kvs = rootPrune (fun q => decide (q ∈ done ++ [segsOf l.1])) kvs := by
      unfold rootPrune
      congr 1
      apply prunef_congr
      intro l' hl'
      rw [Bool.eq_iff_iff]
      simp only [decide_eq_true_eq, lePath, List.mem_append, List.mem_singleton, Bool.or_eq_true, beq_iff_eq]
      constructor
      · rintro (hlt | hlt)
        · rcases (hmem (segsOf l'.1)).2 ⟨l', hl', rfl⟩ with h' | h'
          · exact Or.inl h'
          · simp only [List.mem_cons] at h'
            rcases h' with h' | h'
            · exact Or.inr h'
            · have := segsLess_asymm (mades_segsOf _) (mades_segsOf _) hlt
              rw [s1 _ h'] at this; cases this
        · exact Or.inr hlt
      · rintro (h' | h')
        · exact Or.inl (hd _ h' _ (by simp))
        · exact Or.inr h'
    simp only [addAllSegs]
    rw [hm l hl, e1, root_step h hl]
    simp only [Option.getD_some]
    rw [e2]
    apply ih
    · intro q
      rw [← hmem q]
      simp only [List.mem_append, List.mem_cons, List.not_mem_nil, or_false]
      constructor
      · rintro ((h | h) | h) <;> simp [h]
      · rintro (h | h | h) <;> simp [h]
    · exact s2
    · intro a ha b hb
      simp only [List.mem_append, List.mem_singleton] at ha
      rcases ha with ha | rfl
      · exact hd a ha b (by simp [hb])
      · exact s1 b hb

/-! ### everything kept -/

theorem leavess_ne_nil {xs : List J} (h : xs ≠ []) (hl : ∀ x ∈ xs, x.leaves ≠ []) (i : Nat) : J.leavess xs i ≠ [] := by
  cases xs with
  | nil => exact absurd rfl h
  | cons x xs =>
    simp only [J.leavess, ne_eq, List.append_eq_nil_iff, List.map_eq_nil_iff]
    exact fun hc => hl x (by simp) hc.1

theorem leavesf_ne_nil {kvs : List (Bytes × J)} (h : kvs ≠ []) (hl : ∀ e ∈ kvs, e.2.leaves ≠ []) : J.leavesf kvs ≠ [] := by
  cases kvs with
  | nil => exact absurd rfl h
  | cons e r =>
    obtain ⟨k, x⟩ := e
    simp only [J.leavesf, ne_eq, List.append_eq_nil_iff, List.map_eq_nil_iff]
    exact fun hc => hl (k, x) (by simp) hc.1

theorem leaves_ne_nil (v : J) : v.QueryClean → v.leaves ≠ [] := by
  induction v using J.ind with
  | arr xs ih =>
    intro h
    simp only [J.QueryClean] at h
    simp only [J.leaves]
    refine leavess_ne_nil h.1 (fun x hx => ?_) 0
    obtain ⟨j, hj⟩ := List.getElem?_of_mem hx
    exact ih j x hj (queryCleans_get h.2.2 hj)
  | dict id kvs ih =>
    intro h
    simp only [J.QueryClean] at h
    simp only [J.leaves]
    exact leavesf_ne_nil h.1 fun e he => ih e.1 e.2 he (queryCleanf_get h.2.2 he)
  | null => intro _; simp [J.leaves]
  | bool b => intro _; simp [J.leaves]
  | int n => intro _; simp [J.leaves]
  | float x b => intro _; simp [J.leaves]
  | str s => intro _; simp [J.leaves]
  | ptr i => intro h; exact absurd h (by simp [J.QueryClean])

theorem prune_all (v : J) : v.QueryClean → v.prune (fun _ => true) = some v.textual := by
  induction v using J.ind with
  | arr xs ih =>
    intro h
    simp only [J.QueryClean] at h
    have : ∀ (xs : List J) (i : Nat), (∀ x ∈ xs, x.prune (fun _ => true) = some x.textual) → J.prunes (fun _ => true) xs i = J.textuals xs := by
      intro xs
      induction xs with
      | nil => intros; rfl
      | cons x xs ihx =>
        intro i hx
        simp only [J.prunes, J.textuals, hx x (by simp)]
        rw [ihx (i + 1) fun y hy => hx y (by simp [hy])]
    have e := this xs 0 fun x hx => by
      obtain ⟨j, hj⟩ := List.getElem?_of_mem hx
      exact ih j x hj (queryCleans_get h.2.2 hj)
    simp only [J.prune, J.textual, e]
    cases xs with
    | nil => exact absurd rfl h.1
    | cons x xs => rfl
  | dict id kvs ih =>
    intro h
    simp only [J.QueryClean] at h
    have : ∀ kvs : List (Bytes × J), (∀ e ∈ kvs, e.2.prune (fun _ => true) = some e.2.textual) → J.prunef (fun _ => true) kvs = J.textualf kvs := by
      intro kvs
      induction kvs with
      | nil => intros; rfl
      | cons e r ihr =>
        intro hx
        obtain ⟨k, x⟩ := e
        have := hx (k, x) (by simp)
        simp only at this
        simp only [J.prunef, J.textualf, this]
        rw [ihr fun y hy => hx y (by simp [hy])]
    have e := this kvs fun e he => ih e.1 e.2 he (queryCleanf_get h.2.2 he)
    simp only [J.prune, J.textual, e]
    cases kvs with
    | nil => exact absurd rfl h.1
    | cons x xs => rfl
  | null => intro _; simp [J.prune, J.textual]
  | bool b => intro _; simp [J.prune, J.textual]
  | int n => intro _; simp [J.prune, J.textual]
  | float x b => intro _; simp [J.prune, J.textual]
  | str s => intro _; simp [J.prune, J.textual]
  | ptr i => intro h; exact absurd h (by simp [J.QueryClean])

theorem prunef_all {kvs : SMap J} (h : J.QueryCleanf kvs) : J.prunef (fun _ => true) kvs = J.textualf kvs := by
  induction kvs with
  | nil => rfl
  | cons e r ih =>
    obtain ⟨k, x⟩ := e
    simp only [J.prunef, J.textualf, prune_all x h.1]
    rw [ih h.2]

theorem prunef_none (kvs : SMap J) : J.prunef (fun _ => false) kvs = [] := by
  induction kvs with
  | nil => rfl
  | cons e r ih =>
    obtain ⟨k, x⟩ := e
    have : x.prune (fun _ => false) = none := by
      cases h : x.prune (fun _ => false) with
      | none => rfl
      | some y =>
        have := (prune_isSome x fun _ => false).1 (by rw [h]; rfl)
        obtain ⟨_, _, h⟩ := this
        cases h
    simp only [J.prunef, this]
    exact ih

/-! ### the printed text -/

/-- The `key=value` text of a scalar. -/
def leafPair (key : Bytes) (l : List Bytes × Bytes) : Bytes := simpleQueryString (joinWith [46] (key :: l.1)) l.2

theorem joinWith_append (sep : Bytes) (a b : List Bytes) (ha : a ≠ []) (hb : b ≠ []) :
    joinWith sep (a ++ b) = joinWith sep a ++ sep ++ joinWith sep b := by
  induction a with
  | nil => exact absurd rfl ha
  | cons x xs ih =>
    cases xs with
    | nil =>
      cases b with
      | nil => exact absurd rfl hb
      | cons y ys => rfl
    | cons y ys =>
      have := ih (by simp)
      simp only [List.cons_append, joinWith] at this ⊢
      rw [this]
      simp

theorem joinWith_flatten (sep : Bytes) (ls : List (List Bytes)) (h : ∀ l ∈ ls, l ≠ []) :
    joinWith sep (ls.map (joinWith sep)) = joinWith sep ls.flatten := by
  induction ls with
  | nil => rfl
  | cons l ls ih =>
    cases ls with
    | nil => simp [joinWith]
    | cons m ms =>
      have := ih fun l hl => h l (by simp [hl])
      simp only [List.map_cons, joinWith] at this ⊢
      rw [this]
      show _ = joinWith sep (l ++ (m :: ms).flatten)
      rw [joinWith_append _ _ _ (h l (by simp))]
      intro hc
      rw [List.flatten_cons] at hc
      exact h m (by simp) (List.append_eq_nil_iff.1 hc).1

theorem joinWith_ne_nil {key : Bytes} (hk : key ≠ []) (ps : List Bytes) : joinWith [46] (key :: ps) ≠ [] := by
  cases ps with
  | nil => exact hk
  | cons p ps => simp [joinWith, hk]

theorem subKey_pos {key : Bytes} (hk : key ≠ []) (k : Bytes) : subKey key k = key ++ [46] ++ k ∧ subKey key k ≠ [] := by
  have : 0 < key.length := List.length_pos_iff.2 hk
  simp [subKey, this, hk]

theorem join_subKey (key k : Bytes) (ps : List Bytes) : joinWith [46] ((key ++ [46] ++ k) :: ps) = joinWith [46] (key :: k :: ps) := by
  cases ps with
  | nil => simp [joinWith]
  | cons p ps => simp [joinWith]

theorem leafPair_sub {key : Bytes} (hk : key ≠ []) (k : Bytes) (l : List Bytes × Bytes) :
    leafPair (subKey key k) l = leafPair key (k :: l.1, l.2) := by
  unfold leafPair
  rw [(subKey_pos hk k).1, join_subKey]

theorem queryStr_eq (v : J) : v.QueryClean → ∀ key : Bytes, key ≠ [] → v.queryStr key = joinWith b!"&" (v.leaves.map (leafPair key)) := by
  induction v using J.ind with
  | arr xs ih =>
    intro h key hk
    simp only [J.QueryClean] at h
    have hq : ∀ x ∈ xs, x.QueryClean := fun x hx => by
      obtain ⟨j, hj⟩ := List.getElem?_of_mem hx
      exact queryCleans_get h.2.2 hj
    have hi : ∀ x ∈ xs, ∀ key : Bytes, key ≠ [] → x.queryStr key = joinWith b!"&" (x.leaves.map (leafPair key)) := fun x hx => by
      obtain ⟨j, hj⟩ := List.getElem?_of_mem hx
      exact ih j x hj (hq x hx)
    have : ∀ (ys : List J) (i : Nat), (∀ x ∈ ys, x.QueryClean) → (∀ x ∈ ys, ∀ key : Bytes, key ≠ [] → x.queryStr key = joinWith b!"&" (x.leaves.map (leafPair key))) →
        ∃ ls : List (List Bytes), J.queryStrs ys key i = ls.map (joinWith b!"&") ∧ (∀ l ∈ ls, l ≠ []) ∧
          ls.flatten = (J.leavess ys i).map (leafPair key) := by
      intro ys
      induction ys with
      | nil => intros; exact ⟨[], rfl, by simp, rfl⟩
      | cons x ys ihy =>
        intro i h1 h2
        obtain ⟨ls, a, b, c⟩ := ihy (i + 1) (fun x hx => h1 x (by simp [hx])) fun x hx => h2 x (by simp [hx])
        refine ⟨x.leaves.map (leafPair (subKey key (intDec i))) :: ls, ?_, ?_, ?_⟩
        · simp only [J.queryStrs, List.map_cons]
          rw [a, h2 x (by simp) _ (subKey_pos hk _).2]
        · intro l hl
          simp only [List.mem_cons] at hl
          rcases hl with rfl | hl
          · simpa using leaves_ne_nil x (h1 x (by simp))
          · exact b l hl
        · simp only [List.flatten_cons, J.leavess, List.map_append, List.map_map, c]
          congr 1
          apply List.map_congr_left
          intro l _
          exact leafPair_sub hk _ l
    obtain ⟨ls, a, b, c⟩ := this xs 0 hq hi
    simp only [J.queryStr, J.leaves]
    rw [a, joinWith_flatten _ _ b, c]
  | dict id kvs ih =>
    intro h key hk
    simp only [J.QueryClean] at h
    have : ∀ (r : List (Bytes × J)), (∀ e ∈ r, e.2.QueryClean) → (∀ e ∈ r, ∀ key : Bytes, key ≠ [] → e.2.queryStr key = joinWith b!"&" (e.2.leaves.map (leafPair key))) →
        ∃ ls : List (List Bytes), J.queryStrf r key = ls.map (joinWith b!"&") ∧ (∀ l ∈ ls, l ≠ []) ∧
          ls.flatten = (J.leavesf r).map (leafPair key) := by
      intro r
      induction r with
      | nil => intros; exact ⟨[], rfl, by simp, rfl⟩
      | cons e r ihy =>
        intro h1 h2
        obtain ⟨k, x⟩ := e
        obtain ⟨ls, a, b, c⟩ := ihy (fun x hx => h1 x (by simp [hx])) fun x hx => h2 x (by simp [hx])
        refine ⟨x.leaves.map (leafPair (subKey key k)) :: ls, ?_, ?_, ?_⟩
        · simp only [J.queryStrf, List.map_cons]
          rw [a, h2 (k, x) (by simp) _ (subKey_pos hk _).2]
        · intro l hl
          simp only [List.mem_cons] at hl
          rcases hl with rfl | hl
          · simpa using leaves_ne_nil x (h1 (k, x) (by simp))
          · exact b l hl
        · simp only [List.flatten_cons, J.leavesf, List.map_append, List.map_map, c]
          congr 1
          apply List.map_congr_left
          intro l _
          exact leafPair_sub hk _ l
    obtain ⟨ls, a, b, c⟩ := this kvs (fun e he => queryCleanf_get h.2.2 he) fun e he => ih e.1 e.2 he (queryCleanf_get h.2.2 he)
    simp only [J.queryStr, J.leaves]
    rw [a, joinWith_flatten _ _ b, c]
  | null => intro _ key hk; simp [J.queryStr, J.leaves, leafPair, joinWith, J.leafText]
  | bool b => intro _ key hk; cases b <;> simp [J.queryStr, J.leaves, leafPair, joinWith, J.leafText, J.toBytes]
  | int n => intro _ key hk; simp [J.queryStr, J.leaves, leafPair, joinWith, J.leafText, J.toBytes]
  | float x b => intro _ key hk; simp [J.queryStr, J.leaves, leafPair, joinWith, J.leafText]
  | str s => intro _ key hk; simp [J.queryStr, J.leaves, leafPair, joinWith, J.leafText]
  | ptr i => intro h; exact absurd h (by simp [J.QueryClean])

/-- Text of a scalar of the top-level dictionary. -/
def rootPair (l : List Bytes × Bytes) : Bytes := simpleQueryString (joinWith [46] l.1) l.2

theorem rootStr_eq {kvs : SMap J} (hk : ∀ e ∈ kvs, e.1 ≠ []) (hq : J.QueryCleanf kvs) (id : Int) :
    (J.dict id kvs).queryString = joinWith b!"&" ((J.leavesf kvs).map rootPair) := by
  have : ∀ (r : List (Bytes × J)), (∀ e ∈ r, e.1 ≠ []) → J.QueryCleanf r →
      ∃ ls : List (List Bytes), J.queryStrf r [] = ls.map (joinWith b!"&") ∧ (∀ l ∈ ls, l ≠ []) ∧
        ls.flatten = (J.leavesf r).map rootPair := by
    intro r
    induction r with
    | nil => intros; exact ⟨[], rfl, by simp, rfl⟩
    | cons e r ihy =>
      intro h1 h2
      obtain ⟨k, x⟩ := e
      have hk : k ≠ [] := h1 (k, x) (by simp)
      obtain ⟨ls, a, b, c⟩ := ihy (fun x hx => h1 x (by simp [hx])) h2.2
      refine ⟨x.leaves.map (leafPair k) :: ls, ?_, ?_, ?_⟩
      · simp only [J.queryStrf, List.map_cons]
        have e : subKey [] k = k := by simp [subKey]
        rw [a, e, queryStr_eq x h2.1 k hk]
      · intro l hl
        simp only [List.mem_cons] at hl
        rcases hl with rfl | hl
        · simpa using leaves_ne_nil x h2.1
        · exact b l hl
      · simp only [List.flatten_cons, J.leavesf, List.map_append, List.map_map, c]
        rfl
  obtain ⟨ls, a, b, c⟩ := this kvs hk hq
  show (J.dict id kvs).queryStr [] = _
  rw [J.queryStr, a, joinWith_flatten _ _ b, c]

/-! ### reading the pairs back -/

theorem simpleQueryString_parts {key : Bytes} (hk : key ≠ []) (val : Bytes) :
    let s := simpleQueryString key val
    s ≠ [] ∧ (38 : UInt8) ∉ s ∧ s.contains 59 = false ∧ queryUnescape (cutEq s).1 = some key ∧ queryUnescape (cutEq s).2 = some val := by
  have hk0 : 0 < key.length := List.length_pos_iff.2 hk
  have n38 := fun s => queryEscape_not_mem s 38 (by decide) (by decide) (by decide)
  have n59 := fun s => queryEscape_not_mem s 59 (by decide) (by decide) (by decide)
  have n61 := fun s => queryEscape_not_mem s 61 (by decide) (by decide) (by decide)
  intro s
  by_cases hv : val = []
  · have e : s = queryEscape key := by simp [s, simpleQueryString, hv, hk0]
    rw [e]
    refine ⟨queryEscape_ne_nil key hk, n38 key, by simpa using n59 key, ?_, ?_⟩
    · rw [cutEq_noEq _ (n61 key)]; exact queryUnescape_queryEscape key
    · rw [cutEq_noEq _ (n61 key), hv]; rfl
  · have hv0 : 0 < val.length := List.length_pos_iff.2 hv
    have e : s = queryEscape key ++ 61 :: queryEscape val := by simp [s, simpleQueryString, hv0, hk0]
    rw [e]
    refine ⟨by simp, ?_, ?_, ?_, ?_⟩
    · simp only [List.mem_append, List.mem_cons, not_or]
      exact ⟨n38 key, by decide, n38 val⟩
    · have : (59 : UInt8) ∉ queryEscape key ++ 61 :: queryEscape val := by
        simp only [List.mem_append, List.mem_cons, not_or]
        exact ⟨n59 key, by decide, n59 val⟩
      simpa using this
    · rw [cutEq_append _ _ (n61 key)]; exact queryUnescape_queryEscape key
    · rw [cutEq_append _ _ (n61 key)]; exact queryUnescape_queryEscape val

theorem valuesAppend_new (m : Values) (k v : Bytes) (h : ∀ e ∈ m, e.1 ≠ k) : valuesAppend m k v = m ++ [(k, [v])] := by
  induction m with
  | nil => rfl
  | cons e m ih =>
    obtain ⟨k', vs⟩ := e
    simp only [valuesAppend]
    rw [if_neg (h (k', vs) (by simp)), ih fun e he => h e (by simp [he])]
    rfl

theorem parseQueryLoop_pairs (ps : List (Bytes × Bytes)) (m : Values) (hk : ∀ p ∈ ps, p.1 ≠ [])
    (hn : (ps.map (·.1)).Nodup) (hd : ∀ p ∈ ps, ∀ e ∈ m, e.1 ≠ p.1) :
    parseQueryLoop (ps.map fun p => simpleQueryString p.1 p.2) m false = (m ++ ps.map fun p => (p.1, [p.2]), false) := by
  induction ps generalizing m with
  | nil => simp [parseQueryLoop]
  | cons p ps ih =>
    obtain ⟨h1, h2, h3, h4, h5⟩ := simpleQueryString_parts (hk p (by simp)) p.2
    simp only [List.map_cons, parseQueryLoop]
    rw [h3, if_neg (by simp), if_neg h1, h4]
    simp only
    rw [h5]
    simp only
    simp only [List.map_cons, List.nodup_cons] at hn
    rw [valuesAppend_new m _ _ (hd p (by simp)), ih _ (fun q hq => hk q (by simp [hq])) hn.2]
    · simp
    · intro q hq e he
      simp only [List.mem_append, List.mem_singleton] at he
      rcases he with he | rfl
      · exact hd q (by simp [hq]) e he
      · intro heq
        exact hn.1 (List.mem_map.2 ⟨q, hq, heq.symm⟩)

theorem valuesGet_of_mem (m : Values) (hn : (m.map (·.1)).Nodup) (k : Bytes) (vs : List Bytes) (h : (k, vs) ∈ m) : valuesGet m k = vs := by
  induction m with
  | nil => simp at h
  | cons e m ih =>
    obtain ⟨k', vs'⟩ := e
    simp only [List.map_cons, List.nodup_cons] at hn
    simp only [valuesGet]
    simp only [List.mem_cons, Prod.mk.injEq] at h
    rcases h with ⟨rfl, rfl⟩ | h
    · simp
    · rw [if_neg, ih hn.2 h]
      rintro rfl
      exact hn.1 (List.mem_map.2 ⟨(k', vs), h, rfl⟩)

theorem parseQuery_pairs (ps : List (Bytes × Bytes)) (hk : ∀ p ∈ ps, p.1 ≠ []) (hn : (ps.map (·.1)).Nodup) :
    parseQuery (joinWith b!"&" (ps.map fun p => simpleQueryString p.1 p.2)) = some (ps.map fun p => (p.1, [p.2])) := by
  unfold parseQuery
  cases ps with
  | nil => rfl
  | cons p r =>
    rw [splitOn_join 38]
    · rw [parseQueryLoop_pairs _ _ hk hn (by simp)]
      simp
    · simp
    · intro s hs
      simp only [List.mem_map] at hs
      obtain ⟨q, hq, rfl⟩ := hs
      exact (simpleQueryString_parts (hk q hq) q.2).2.1

/-! ### paths of scalars -/

/-- Pieces of a path: no dots, canonical if numeric. -/
def GoodPath (p : List Bytes) : Prop := ∀ k ∈ p, QueryKey k

theorem queryKey_intDec (n : Int) : QueryKey (intDec n) := ⟨intDec_noDot n, fun _ _ => intDec_canonical n⟩

theorem leaves_good (v : J) : v.QueryClean → ∀ l ∈ v.leaves, GoodPath l.1 := by
  induction v using J.ind with
  | arr xs ih =>
    intro h l hl
    simp only [J.QueryClean] at h
    simp only [J.leaves] at hl
    obtain ⟨j, x, q, h1, h2, rfl⟩ := mem_leavess.1 hl
    intro k hk
    simp only [List.mem_cons] at hk
    rcases hk with rfl | hk
    · exact queryKey_intDec _
    · exact ih j x h1 (queryCleans_get h.2.2 h1) q h2 k hk
  | dict id kvs ih =>
    intro h l hl
    simp only [J.QueryClean] at h
    simp only [J.leaves] at hl
    obtain ⟨k, x, h1, q, h2, rfl⟩ := mem_leavesf.1 hl
    intro k' hk
    simp only [List.mem_cons] at hk
    rcases hk with rfl | hk
    · exact h.2.1 _ h1
    · exact ih k x h1 (queryCleanf_get h.2.2 h1) q h2 k' hk
  | null => intro _ l hl; simp [J.leaves] at hl; subst hl; intro k hk; simp at hk
  | bool b => intro _ l hl; simp [J.leaves] at hl; subst hl; intro k hk; simp at hk
  | int n => intro _ l hl; simp [J.leaves] at hl; subst hl; intro k hk; simp at hk
  | float x b => intro _ l hl; simp [J.leaves] at hl; subst hl; intro k hk; simp at hk
  | str s => intro _ l hl; simp [J.leaves] at hl; subst hl; intro k hk; simp at hk
  | ptr i => intro h; exact absurd h (by simp [J.QueryClean])

theorem intDec_nat_inj' {i j : Nat} (h : intDec (i : Int) = intDec (j : Int)) : i = j := by
  have hh : ∀ n : Nat, intDec (n : Int) = natDec n := fun n => by
    unfold intDec
    rw [if_neg (by omega)]
    simp
  rw [hh, hh] at h
  exact natDec_inj h

theorem leavess_nodup {xs : List J} (h : ∀ x ∈ xs, (x.leaves.map (·.1)).Nodup) (i : Nat) : ((J.leavess xs i).map (·.1)).Nodup := by
  induction xs generalizing i with
  | nil => simp [J.leavess]
  | cons x xs ih =>
    simp only [J.leavess, List.map_append, List.map_map]
    rw [List.nodup_append]
    refine ⟨?_, ih (fun y hy => h y (by simp [hy])) _, ?_⟩
    · have := h x (by simp)
      have e : (x.leaves.map ((·.1) ∘ fun l : List Bytes × Bytes => (intDec (i : Int) :: l.1, l.2))) = (x.leaves.map (·.1)).map (intDec (i : Int) :: ·) := by
        simp
      rw [e]
      exact List.Pairwise.map _ (fun a b hab hc => hab (by simpa using hc)) this
    · intro a ha b hb hab
      simp only [List.mem_map, Function.comp] at ha hb
      obtain ⟨l, _, rfl⟩ := ha
      obtain ⟨l', hl', rfl⟩ := hb
      obtain ⟨j, y, q, _, _, rfl⟩ := mem_leavess.1 hl'
      simp only [List.cons.injEq] at hab
      have := intDec_nat_inj' hab.1
      omega

theorem leavesf_nodup {kvs : SMap J} (hs : SMap.Sorted kvs) (h : ∀ e ∈ kvs, (e.2.leaves.map (·.1)).Nodup) : ((J.leavesf kvs).map (·.1)).Nodup := by
  induction kvs with
  | nil => simp [J.leavesf]
  | cons e r ih =>
    obtain ⟨k, x⟩ := e
    obtain ⟨h1, h2⟩ := sorted_cons.1 hs
    simp only [J.leavesf, List.map_append, List.map_map]
    rw [List.nodup_append]
    refine ⟨?_, ih h2 (fun y hy => h y (by simp [hy])), ?_⟩
    · have := h (k, x) (by simp)
      have e : (x.leaves.map ((·.1) ∘ fun l : List Bytes × Bytes => (k :: l.1, l.2))) = (x.leaves.map (·.1)).map (k :: ·) := by
        simp
      rw [e]
      exact List.Pairwise.map _ (fun a b hab hc => hab (by simpa using hc)) this
    · intro a ha b hb hab
      simp only [List.mem_map, Function.comp] at ha hb
      obtain ⟨l, _, rfl⟩ := ha
      obtain ⟨l', hl', rfl⟩ := hb
      obtain ⟨k', y, hm, q, _, rfl⟩ := mem_leavesf.1 hl'
      simp only [List.cons.injEq] at hab
      exact blt_ne (h1 _ hm) hab.1

theorem leaves_nodup (v : J) : v.WF → (v.leaves.map (·.1)).Nodup := by
  induction v using J.ind with
  | arr xs ih =>
    intro h
    simp only [J.leaves]
    refine leavess_nodup (fun x hx => ?_) 0
    obtain ⟨j, hj⟩ := List.getElem?_of_mem hx
    exact ih j x hj (wfs_get h hj)
  | dict id kvs ih =>
    intro h
    simp only [J.leaves]
    exact leavesf_nodup (WF_dict_sorted h) fun e he => ih e.1 e.2 he ((wf_dict_iff.1 h).2 e he)
  | null => intro _; simp [J.leaves]
  | bool b => intro _; simp [J.leaves]
  | int n => intro _; simp [J.leaves]
  | float x b => intro _; simp [J.leaves]
  | str s => intro _; simp [J.leaves]
  | ptr i => intro _; simp [J.leaves]

theorem good_segments {p : List Bytes} (hne : p ≠ []) (h : GoodPath p) :
    string2Segments (joinWith [46] p) = segsOf p ∧ segments2string (segsOf p) = joinWith [46] p := by
  constructor
  · unfold string2Segments segsOf
    rw [splitOn_join 46 p hne fun q hq => (h q hq).1]
  · unfold segments2string segsOf
    rw [(map_toText_eq_iff p).2 fun q hq => (h q hq).2]

/-- Parsing the printed text adds the scalars one by one, in the order of their keys. -/
theorem query_fold {kvs : SMap J} (hw : (J.dict 0 kvs).WF) (hkeys : ∀ e ∈ kvs, QueryKey e.1) (hvals : J.QueryCleanf kvs)
    (hk : ∀ e ∈ kvs, e.1 ≠ []) (id : Int) : ∃ (m : Values) (srt : List (List TextNumber)),
    parseQueryString (J.dict id kvs).queryString = addAllSegs m srt (.dict 0 []) ∧
    (∀ l ∈ J.leavesf kvs, valuesGet m (segments2string (segsOf l.1)) = [l.2]) ∧
    (∀ p, p ∈ srt ↔ ∃ l ∈ J.leavesf kvs, segsOf l.1 = p) ∧ srt.Pairwise fun a b => segsLess a b = true := by
  have hs := WF_dict_sorted hw
  -- the paths
  have hgood : ∀ l ∈ J.leavesf kvs, l.1 ≠ [] ∧ GoodPath l.1 ∧ joinWith [46] l.1 ≠ [] := by
    intro l hl
    obtain ⟨k, x, h1, q, h2, rfl⟩ := mem_leavesf.1 hl
    refine ⟨by simp, fun k' hk' => ?_, joinWith_ne_nil (hk _ h1) _⟩
    simp only [List.mem_cons] at hk'
    rcases hk' with rfl | hk'
    · exact hkeys _ h1
    · exact leaves_good x (queryCleanf_get hvals h1) q h2 k' hk'
  have hnd : ((J.leavesf kvs).map (·.1)).Nodup := leavesf_nodup hs fun e he => leaves_nodup e.2 ((wf_dict_iff.1 hw).2 e he)
  have hinj : ∀ l ∈ J.leavesf kvs, ∀ l' ∈ J.leavesf kvs, joinWith [46] l.1 = joinWith [46] l'.1 → l.1 = l'.1 := by
    intro l hl l' hl' he
    have a := splitOn_join 46 l.1 (hgood l hl).1 fun q hq => ((hgood l hl).2.1 q hq).1
    have b := splitOn_join 46 l'.1 (hgood l' hl').1 fun q hq => ((hgood l' hl').2.1 q hq).1
    rw [← a, ← b, he]
  have hnd' : (((J.leavesf kvs).map fun l => (joinWith [46] l.1, l.2)).map (·.1)).Nodup := by
    rw [List.map_map]
    have e : ((fun p : Bytes × Bytes => p.1) ∘ fun l : List Bytes × Bytes => (joinWith [46] l.1, l.2)) = fun l => joinWith [46] l.1 := rfl
    rw [e]
    unfold List.Nodup at hnd ⊢
    rw [List.pairwise_map] at hnd ⊢
    exact hnd.imp_of_mem fun {a b} ha hb hab hc => hab (hinj a ha b hb hc)
  have hstr : (J.dict id kvs).queryString =
      joinWith b!"&" (((J.leavesf kvs).map fun l => (joinWith [46] l.1, l.2)).map fun p => simpleQueryString p.1 p.2) := by
    rw [rootStr_eq hk hvals, List.map_map]
    rfl
  have hq := parseQuery_pairs ((J.leavesf kvs).map fun l => (joinWith [46] l.1, l.2)) (by
    intro p hp
    simp only [List.mem_map] at hp
    obtain ⟨l, hl, rfl⟩ := hp
    exact (hgood l hl).2.2) hnd'
  unfold parseQueryString
  rw [hstr, hq]
  simp only [List.map_map]
  have hsegs : ((J.leavesf kvs).map ((fun kv : Bytes × List Bytes => string2Segments kv.1) ∘ (fun p : Bytes × Bytes => (p.1, [p.2])) ∘
      fun l : List Bytes × Bytes => (joinWith [46] l.1, l.2))) = (J.leavesf kvs).map fun l => segsOf l.1 := by
    apply List.map_congr_left
    intro l hl
    exact (good_segments (hgood l hl).1 (hgood l hl).2.1).1
  rw [hsegs]
  have hmades : ∀ y ∈ (J.leavesf kvs).map (fun l => segsOf l.1), Mades y := by
    intro y hy
    simp only [List.mem_map] at hy
    obtain ⟨l, _, rfl⟩ := hy
    exact mades_segsOf _
  have hperm := sortSegs_perm ((J.leavesf kvs).map fun l => segsOf l.1)
  have hsort := sortSegs_sorted hmades
  have hsn : (sortSegs ((J.leavesf kvs).map fun l => segsOf l.1)).Nodup := by
    rw [hperm.nodup_iff]
    unfold List.Nodup at hnd ⊢
    rw [List.pairwise_map] at hnd ⊢
    refine hnd.imp_of_mem fun {a b} ha hb hab hc => hab (hinj a ha b hb ?_)
    have ea := (good_segments (hgood a ha).1 (hgood a ha).2.1).2
    have eb := (good_segments (hgood b hb).1 (hgood b hb).2.1).2
    rw [← ea, ← eb, hc]
  have hlt : (sortSegs ((J.leavesf kvs).map fun l => segsOf l.1)).Pairwise fun a b => segsLess a b = true := by
    refine (hsort.and hsn).imp_of_mem fun {a b} ha hb hab => ?_
    rcases segsLess_total (hmades a (hperm.subset ha)) (hmades b (hperm.subset hb)) with h' | h' | h'
    · exact h'
    · exact absurd h' hab.2
    · rw [hab.1] at h'; cases h'
  exact ⟨_, _, rfl,
    (fun l hl => by
      rw [(good_segments (hgood l hl).1 (hgood l hl).2.1).2]
      apply valuesGet_of_mem
      · simpa [List.map_map, Function.comp_def] using hnd'
      · exact List.mem_map.2 ⟨l, hl, rfl⟩), (fun p => by rw [hperm.mem_iff]; simp), hlt⟩

theorem query_roundtrip {kvs : SMap J} (h : RootOk kvs) (hk : ∀ e ∈ kvs, e.1 ≠ []) (id : Int) :
    parseQueryString (J.dict id kvs).queryString = .ok (.dict 0 (J.textualf kvs)) := by
  obtain ⟨m, srt, e1, e2, e3, e4⟩ := query_fold h.wf h.keys h.vals hk id
  rw [e1]
  have := addAll_ok h m e2 [] srt (fun p => by simp only [List.not_mem_nil, false_or]; exact e3 p) e4 (by simp)
  have e0 : rootPrune (fun q => decide (q ∈ ([] : List (List TextNumber)))) kvs = .dict 0 [] := by
    unfold rootPrune
    have : (fun q : List TextNumber => decide (q ∈ ([] : List (List TextNumber)))) = fun _ => false := by funext q; simp
    rw [this, prunef_none]
  rw [e0] at this
  rw [this]
  unfold rootPrune
  rw [prunef_all h.vals]

mutual
theorem textual_strings : (v : J) → v.StringsOnly → v.textual = v
  | .arr xs, h => by simp only [J.textual]; rw [textuals_strings xs h]
  | .dict id kvs, h => by simp only [J.textual]; rw [textualf_strings kvs h.2, h.1]
  | .str s, _ => rfl
  | .null, h => h.elim
  | .bool _, h => h.elim
  | .int _, h => h.elim
  | .float _ _, h => h.elim
  | .ptr _, h => h.elim
theorem textuals_strings : (xs : List J) → J.StringsOnlys xs → J.textuals xs = xs
  | [], _ => rfl
  | x :: xs, h => by simp only [J.textuals]; rw [textual_strings x h.1, textuals_strings xs h.2]
theorem textualf_strings : (kvs : List (Bytes × J)) → J.StringsOnlyf kvs → J.textualf kvs = kvs
  | [], _ => rfl
  | (k, x) :: kvs, h => by simp only [J.textualf]; rw [textual_strings x h.1, textualf_strings kvs h.2]
end

/-! ### order of the parameters -/

theorem addAllSegs_congr {m m' : Values} (h : ∀ k, valuesGet m k = valuesGet m' k) (l : List (List TextNumber)) (d : J) :
    addAllSegs m l d = addAllSegs m' l d := by
  induction l generalizing d with
  | nil => rfl
  | cons segs rest ih =>
    simp only [addAllSegs, h]
    split
    · rfl
    · exact ih _

theorem valuesGet_perm {m m' : Values} (hp : m.Perm m') (hn : (m.map (·.1)).Nodup) (k : Bytes) : valuesGet m k = valuesGet m' k := by
  have hn' : (m'.map (·.1)).Nodup := (hp.map _).nodup_iff.1 hn
  by_cases h : ∃ vs, (k, vs) ∈ m
  · obtain ⟨vs, h⟩ := h
    rw [valuesGet_of_mem m hn k vs h, valuesGet_of_mem m' hn' k vs (hp.subset h)]
  · have : ∀ m : Values, (¬ ∃ vs, (k, vs) ∈ m) → valuesGet m k = [] := by
      intro m
      induction m with
      | nil => intros; rfl
      | cons e m ih =>
        obtain ⟨k', vs⟩ := e
        intro h
        simp only [valuesGet]
        rw [if_neg, ih fun ⟨vs, hv⟩ => h ⟨vs, by simp [hv]⟩]
        rintro rfl
        exact h ⟨vs, by simp⟩
    rw [this m h, this m' fun ⟨vs, hv⟩ => h ⟨vs, hp.symm.subset hv⟩]

theorem parseQueryString_perm {ps qs : List (Bytes × Bytes)} (hp : ps.Perm qs) (hk : ∀ p ∈ ps, p.1 ≠ []) (hn : (ps.map (·.1)).Nodup) :
    parseQueryString (joinWith b!"&" (ps.map fun p => simpleQueryString p.1 p.2)) =
    parseQueryString (joinWith b!"&" (qs.map fun p => simpleQueryString p.1 p.2)) := by
  have hn' : (qs.map (·.1)).Nodup := (hp.map _).nodup_iff.1 hn
  unfold parseQueryString
  rw [parseQuery_pairs ps hk hn, parseQuery_pairs qs (fun p h => hk p (hp.symm.subset h)) hn']
  simp only
  have hp' := hp.map fun p : Bytes × Bytes => (p.1, [p.2])
  have hnn : ((ps.map fun p : Bytes × Bytes => (p.1, [p.2])).map (·.1)).Nodup := by simpa [List.map_map, Function.comp_def] using hn
  have hs : sortSegs ((ps.map fun p : Bytes × Bytes => (p.1, [p.2])).map fun kv => string2Segments kv.1) =
      sortSegs ((qs.map fun p : Bytes × Bytes => (p.1, [p.2])).map fun kv => string2Segments kv.1) := by
    have hm : ∀ l : List (Bytes × List Bytes), ∀ y ∈ l.map (fun kv => string2Segments kv.1), Mades y := by
      intro l y hy
      simp only [List.mem_map] at hy
      obtain ⟨e, _, rfl⟩ := hy
      exact mades_string2Segments _
    refine sorted_perm_eq ((sortSegs_perm _).trans ((hp'.map _).trans (sortSegs_perm _).symm)) (sortSegs_sorted (hm _)) (sortSegs_sorted (hm _)) ?_
    intro y hy
    exact hm _ y ((sortSegs_perm _).subset hy)
  rw [hs]
  exact addAllSegs_congr (valuesGet_perm hp' hnn) _ _

end Jsonutils
